import Verif.Spec.Expression
import Verif.Lemmas.ExpressionPrint
import Verif.Lemmas.Extension
import Verif.Prop.Literal

/-! # Lemmas on expressions -/

namespace Verif.Expr

open Verif Verif.TyPb Verif.Tree Verif.Literal Verif.Lex Verif.Parse

/-! ## Ends of texts -/

theorem suffix_of_endsWith {s w : Str} (h : StringManipulation.endsWith s w = true) : w <:+ s := by
  unfold StringManipulation.endsWith at h
  rw [Bool.and_eq_true, decide_eq_true_eq, beq_iff_eq] at h
  obtain ⟨hl, h⟩ := h
  rw [List.take_of_length_le (by simp; omega)] at h
  rw [← h]
  exact List.drop_suffix _ _

theorem endsWith_of_append {a w : Str} (h : a ≠ []) : StringManipulation.endsWith (a ++ w) w = true := by
  unfold StringManipulation.endsWith
  have hl : 0 < a.length := List.length_pos_iff.mpr h
  simp [hl]

/-- A suffix without the character `y` is a suffix of what follows a `y`. -/
theorem suffix_after {w a r : Str} {y : Char} (hy : y ∉ w) (h : w <:+ a ++ y :: r) : w <:+ r := by
  have h2 : (y :: r) <:+ a ++ y :: r := List.suffix_append _ _
  rcases List.suffix_or_suffix_of_suffix h h2 with h3 | h3
  · rcases List.suffix_cons_iff.mp h3 with h4 | h4
    · exact absurd (by rw [h4]; simp) hy
    · exact h4
  · obtain ⟨u, hu⟩ := h3
    exact absurd (by rw [← hu]; simp) hy

theorem last_of_suffix {w s : Str} {x : Char} (h : (w ++ [x]) <:+ s) : s.getLast? = some x := by
  obtain ⟨u, rfl⟩ := h
  rw [← List.append_assoc]
  simp

/-- A text that does not end in `m` does not end in `_enum`. -/
theorem not_enum_of_last {s : Str} (h : s.getLast? ≠ some 'm') : ¬ "_enum".toList <:+ s := by
  intro hs
  exact h (last_of_suffix (w := "_enu".toList) hs)

/-! ## Expressions one after the other -/

/-- The next token is none that would go on with a name, a type, a call or a reference. -/
def TailOk (rest : List Token) : Prop :=
  TyEnd rest ∧ nextIs .leftParen rest = false ∧ nextIs .period rest = false ∧
    nextIs .arrow rest = false

/-- A text with its tokens and the tree they are parsed as. -/
structure Item where
  text : Str
  toks : List Token
  tree : ExprTree

/-- The tokens of the text are parsed as the tree whatever follows. -/
structure Good (i : Item) : Prop where
  lexes : Lexes i.text i.toks NameEnd
  head : ∃ t r, i.toks = t :: r ∧ t.kind ≠ .rightParen
  parses : ∃ m, m + 3 ≤ 4 * i.toks.length ∧ ∀ F, 4 * i.toks.length ≤ F → ∀ rest, TailOk rest →
    parseExpr F (i.toks ++ rest) = parsePostfix (F - m) i.tree rest

theorem tailOk_cons (t : Token) (r : List Token) (h : t.kind ∉
    [Tk.underscore, .question, .leftAngle, .leftParen, .period, .arrow]) : TailOk (t :: r) := by
  simp only [List.mem_cons, List.not_mem_nil, or_false, not_or] at h
  refine ⟨⟨?_, ?_, ?_⟩, ?_, ?_, ?_⟩ <;> simp [nextIs, h]

theorem Good.parse_end {i : Item} (h : Good i) (F : Nat) (hF : 4 * i.toks.length ≤ F)
    (rest : List Token) (ht : TailOk rest) (he : ExprEnd rest) :
    parseExpr F (i.toks ++ rest) = some (i.tree, rest) := by
  obtain ⟨m, hm, hp⟩ := h.parses
  rw [hp F hF rest ht]
  obtain ⟨g, hg⟩ : ∃ g, F - m = g + 1 := ⟨F - m - 1, by omega⟩
  rw [hg]
  exact parsePostfix_end g _ _ he

def comma : Token := ⟨.comma, [',']⟩
def rightParen : Token := ⟨.rightParen, [')']⟩
def leftParen : Token := ⟨.leftParen, ['(']⟩

/-- The tokens of expressions separated by commas. -/
def itemsToks : List Item → List Token
  | [] => []
  | [i] => i.toks
  | i :: j :: r => i.toks ++ comma :: itemsToks (j :: r)

/-- Whether a comma follows. -/
def commasOf : List Item → List Bool
  | [] => []
  | [_] => [false]
  | _ :: j :: r => true :: commasOf (j :: r)

theorem lexes_comma (ok : Str → Prop) : Lexes [','] [comma] ok :=
  lexes_sign ',' .comma (by simp [signs]) rfl _

theorem nameEnd_comma (r : Str) : NameEnd (',' :: r) := nameEnd_cons _ _ (by decide)

theorem lexes_items : ∀ (is : List Item), (∀ i ∈ is, Good i) →
    Lexes (listText (is.map (·.text))) (itemsToks is) NameEnd
  | [], _ => Lexes.nil _
  | [i], h => (h i (by simp)).lexes
  | i :: j :: r, h => by
    have h1 := (h i (by simp)).lexes
    have h2 := lexes_items (j :: r) (fun x hx => h x (by simp [hx]))
    have h3 := Lexes.append (lexes_comma (fun _ => True))
      (Lexes.append (Ext.lexes_blank1 (fun _ => True)) h2 (fun _ _ => trivial)) (fun _ _ => trivial)
    have h4 := Lexes.append h1 h3 (fun rest _ => nameEnd_comma _)
    exact h4

theorem exprEnd_comma (r : List Token) : ExprEnd (comma :: r) := ⟨rfl, rfl⟩
theorem exprEnd_rightParen (r : List Token) : ExprEnd (rightParen :: r) := ⟨rfl, rfl⟩
theorem tailOk_comma (r : List Token) : TailOk (comma :: r) := tailOk_cons _ _ (by simp [comma])
theorem tailOk_rightParen (r : List Token) : TailOk (rightParen :: r) :=
  tailOk_cons _ _ (by simp [rightParen])

theorem Good.not_rightParen {i : Item} (h : Good i) (rest : List Token) :
    nextIs .rightParen (i.toks ++ rest) = false := by
  obtain ⟨t, r, ht, hk⟩ := h.head
  rw [ht]
  simp [nextIs, hk]

theorem parseArgs_items : ∀ (is : List Item), (∀ i ∈ is, Good i) → ∀ (F : Nat) (rest : List Token),
    4 * (itemsToks is).length + 1 ≤ F →
    parseArgs F (itemsToks is ++ rightParen :: rest) =
      some ((is.map (·.tree), commasOf is), rest)
  | [], _, F, rest, hF => by
    obtain ⟨f, rfl⟩ : ∃ f, F = f + 1 := ⟨F - 1, by omega⟩
    simp [itemsToks, parseArgs, nextIs, rightParen, commasOf]
  | [i], h, F, rest, hF => by
    have hi := h i (by simp)
    obtain ⟨t, r, ht, -⟩ := hi.head
    obtain ⟨f, rfl⟩ : ∃ f, F = f + 1 + 1 := ⟨F - 2, by simp [itemsToks, ht] at hF; omega⟩
    have h1 := hi.parse_end (f + 1) (by simp only [itemsToks] at hF; omega) (rightParen :: rest)
      (tailOk_rightParen _) (exprEnd_rightParen _)
    have h2 := hi.not_rightParen (rightParen :: rest)
    have h3 : parseArgs (f + 1) (rightParen :: rest) = some (([], []), rest) := by
      simp [parseArgs, nextIs, rightParen]
    have h4 : parseComma (rightParen :: rest) = (false, rightParen :: rest) := by
      simp [parseComma, nextIs, rightParen]
    simp only [itemsToks]
    rw [parseArgs, h2, h1]
    simp only [Bool.false_eq_true, if_false, Option.bind_some, h4, h3, Option.map_some]
    rfl
  | i :: j :: r, h, F, rest, hF => by
    have hi := h i (by simp)
    obtain ⟨t, r', ht, -⟩ := hi.head
    obtain ⟨f, rfl⟩ : ∃ f, F = f + 1 := ⟨F - 1, by omega⟩
    have hl : 4 * i.toks.length + 4 + 4 * (itemsToks (j :: r)).length ≤ f := by
      simp [itemsToks] at hF ⊢; omega
    have h1 := hi.parse_end f (by omega) (comma :: (itemsToks (j :: r) ++ rightParen :: rest))
      (tailOk_comma _) (exprEnd_comma _)
    have h2 := hi.not_rightParen (comma :: (itemsToks (j :: r) ++ rightParen :: rest))
    have h3 := parseArgs_items (j :: r) (fun x hx => h x (by simp [hx])) f rest (by omega)
    have h4 : parseComma (comma :: (itemsToks (j :: r) ++ rightParen :: rest)) =
        (true, itemsToks (j :: r) ++ rightParen :: rest) := by
      simp [parseComma, nextIs, comma]
    have e : itemsToks (i :: j :: r) ++ rightParen :: rest =
        i.toks ++ comma :: (itemsToks (j :: r) ++ rightParen :: rest) := by
      simp [itemsToks]
    rw [e, parseArgs, h2, h1]
    simp only [Bool.false_eq_true, if_false, Option.bind_some, h4, h3, Option.map_some]
    rfl

/-- The tokens after the first expression of a list. -/
def moreItems : List Item → List Token
  | [] => []
  | i :: r => comma :: (i.toks ++ moreItems r)

theorem itemsToks_cons (i : Item) : ∀ (r : List Item), itemsToks (i :: r) = i.toks ++ moreItems r
  | [] => by simp [itemsToks, moreItems]
  | j :: r => by rw [itemsToks, itemsToks_cons j r, moreItems]

theorem more_tail (r : List Item) (rest : List Token) :
    TailOk (moreItems r ++ rightParen :: rest) ∧ ExprEnd (moreItems r ++ rightParen :: rest) := by
  cases r with
  | nil => exact ⟨tailOk_rightParen _, exprEnd_rightParen _⟩
  | cons i r => exact ⟨tailOk_comma _, exprEnd_comma _⟩

theorem parseMore_items : ∀ (is : List Item), (∀ i ∈ is, Good i) → ∀ (F : Nat) (rest : List Token),
    4 * (moreItems is).length + 1 ≤ F →
    parseMoreExprs F (moreItems is ++ rightParen :: rest) =
      some (is.map (·.tree), rightParen :: rest)
  | [], _, F, rest, hF => by
    obtain ⟨f, rfl⟩ : ∃ f, F = f + 1 := ⟨F - 1, by omega⟩
    simp [moreItems, parseMoreExprs, nextIs, rightParen]
  | i :: r, h, F, rest, hF => by
    have hi := h i (by simp)
    obtain ⟨f, rfl⟩ : ∃ f, F = f + 1 := ⟨F - 1, by omega⟩
    have hl : 4 * i.toks.length + 4 + 4 * (moreItems r).length ≤ f := by
      simp [moreItems] at hF ⊢; omega
    have h1 := hi.parse_end f (by omega) (moreItems r ++ rightParen :: rest)
      (more_tail r rest).1 (more_tail r rest).2
    have h2 := parseMore_items r (fun x hx => h x (by simp [hx])) f rest (by omega)
    have e : moreItems (i :: r) ++ rightParen :: rest =
        comma :: (i.toks ++ (moreItems r ++ rightParen :: rest)) := by simp [moreItems]
    rw [e, parseMoreExprs]
    simp [nextIs, comma, h1, h2]

/-! ## Types -/

/-- A printed type is a basic type of the grammar. -/
theorem type_tree {t : PbType} (h : TypeOk t) :
    ∃ id ts q numbers, Name id ts ∧ (∀ x ∈ numbers, IsNumberText x) ∧
      printType t = ((TypeTree.basic id q numbers).text, []) ∧
      readType (.basic id q numbers) = .ok (t, []) ∧ id.getLast? ≠ some 'm' := by
  obtain ⟨h1, h2, h3⟩ := h
  have he := (printType_errors t).mpr h1
  have key : ∃ id ts q numbers, Name id ts ∧ (∀ x ∈ numbers, IsNumberText x) ∧
      (printType t).1 = (TypeTree.basic id q numbers).text ∧ id.getLast? ≠ some 'm' := by
    have hb : ∀ n : Nullability, nullMark n = questionText (decide (n = .nullable)) := by
      intro n; cases n <;> rfl
    cases t with
    | scalar k n =>
      have hs : ∃ name ts, printName k = some name ∧ Name name ts ∧ name.getLast? ≠ some 'm' := by
        simp only [printable] at h1
        cases k <;> first
          | exact absurd h1 (by decide)
          | exact ⟨_, _, rfl, name_bool, by decide⟩
          | exact ⟨_, _, rfl, name_i8, by decide⟩
          | exact ⟨_, _, rfl, name_i16, by decide⟩
          | exact ⟨_, _, rfl, name_i32, by decide⟩
          | exact ⟨_, _, rfl, name_i64, by decide⟩
          | exact ⟨_, _, rfl, name_fp32, by decide⟩
          | exact ⟨_, _, rfl, name_fp64, by decide⟩
          | exact ⟨_, _, rfl, name_string, by decide⟩
          | exact ⟨_, _, rfl, name_date, by decide⟩
      obtain ⟨name, ts, hn, hname, hl⟩ := hs
      refine ⟨name, ts, decide (n = .nullable), [], hname, by simp, ?_, hl⟩
      show (printScalar k n).1 = _
      unfold printScalar
      rw [hn]
      simp [TypeTree.text, hb]
    | decimal p s n =>
      refine ⟨_, _, decide (n = .nullable), [intText p, intText s], name_decimal, ?_, ?_, by decide⟩
      · intro x hx; simp at hx; rcases hx with rfl | rfl <;> exact isNumberText_intText _
      · rw [printType_decimal]; simp [TypeTree.text, hb, commaText]
    | varchar l n =>
      refine ⟨_, _, decide (n = .nullable), [intText l], name_varchar, ?_, ?_, by decide⟩
      · intro x hx; simp at hx; subst hx; exact isNumberText_intText _
      · rw [printType_varchar]; simp [TypeTree.text, hb, commaText]
    | fixedChar l n =>
      refine ⟨_, _, decide (n = .nullable), [intText l], name_fixedchar, ?_, ?_, by decide⟩
      · intro x hx; simp at hx; subst hx; exact isNumberText_intText _
      · rw [printType_fixedchar]; simp [TypeTree.text, hb, commaText]
    | _ => simp [printable] at h1
  obtain ⟨id, ts, q, numbers, hn, hx, ht, hl⟩ := key
  refine ⟨id, ts, q, numbers, hn, hx, Prod.ext ht he, ?_, hl⟩
  have := printType_reread_partial false t he h2 h3
  rw [ht] at this
  unfold readType
  rw [this]
  rfl

theorem getLast_append_cons {a r : Str} {c : Char} : (a ++ c :: r).getLast? = (c :: r).getLast? := by
  rw [List.getLast?_append]
  simp [List.getLast?_cons]

/-- The text of a type ends like its name or with a sign. -/
theorem basic_last {id : Str} (q : Bool) (numbers : List Str) (h : id.getLast? ≠ some 'm') :
    ((TypeTree.basic id q numbers).text).getLast? ≠ some 'm' := by
  simp only [TypeTree.text]
  cases hn : numbers.isEmpty
  · rw [if_neg (by simp), show ('<' :: commaText numbers ++ ['>']) = ('<' :: commaText numbers) ++ '>' :: []
      from rfl, ← List.append_assoc, getLast_append_cons]
    decide
  · rw [if_pos rfl, List.append_nil]
    cases q
    · simpa [questionText] using h
    · rw [questionText, if_pos rfl, getLast_append_cons]; decide

theorem basic_ne_nil {id : Str} {ts : List Token} (hn : Name id ts) (q : Bool)
    (numbers : List Str) : (TypeTree.basic id q numbers).text ≠ [] := by
  intro h
  have : id = [] := by
    simp only [TypeTree.text, List.append_eq_nil_iff] at h
    exact h.1.1
  subst this
  have h1 := hn.lexes
  rw [show lex ([] : Str) = some [] from rfl] at h1
  have h2 := hn.parses
  rw [← Option.some.inj h1] at h2
  simp [parseId] at h2

theorem last_append {a b : Str} (hb : b ≠ []) : (a ++ b).getLast? = b.getLast? := by
  cases b with
  | nil => exact absurd rfl hb
  | cons c r => exact getLast_append_cons

/-! ## Literals -/

/-- A text that is a constant. -/
structure ConstItem (text : Str) (toks : List Token) (k : ConstTree) : Prop where
  lexes : Lexes text toks NameEnd
  head : ∃ t r, toks = t :: r ∧ startsConst t.kind
  parses : ∀ F rest, toks.length ≤ F → TyEnd rest → parseConst F (toks ++ rest) = some (k, rest)
  last : k.text.getLast? ≠ some 'm'

theorem constItem_number (n : Str) (hn : IsNumberText n) {id : Str} {ts : List Token}
    (hid : Name id ts) (q : Bool) (numbers : List Str) (h : ∀ x ∈ numbers, IsNumberText x)
    (hl : id.getLast? ≠ some 'm') :
    ConstItem (n ++ '_' :: (TypeTree.basic id q numbers).text)
      (⟨.number, n⟩ :: uTok :: basicToks ts q numbers)
      (.number n (some (.basic id q numbers))) where
  lexes := lexes_typed_number n hn hid q numbers h
  head := ⟨_, _, rfl, .inl rfl⟩
  parses := by
    intro F rest hF hr
    obtain ⟨f, rfl⟩ : ∃ f, F = f + 1 := ⟨F - 1, by simp at hF; omega⟩
    exact parseConst_number f n hid q numbers rest (fun _ => hr)
  last := by
    rw [ConstTree.text, optText, last_append (by simp), List.cons_append, List.nil_append,
      show ('_' :: (TypeTree.basic id q numbers).text) = ['_'] ++ (TypeTree.basic id q numbers).text
      from rfl, last_append (basic_ne_nil hid q numbers)]
    exact basic_last q numbers hl

theorem constItem_string (s : Str) (hs : '\\' ∉ s) {id : Str} {ts : List Token}
    (hid : Name id ts) (q : Bool) (numbers : List Str) (h : ∀ x ∈ numbers, IsNumberText x)
    (hl : id.getLast? ≠ some 'm') :
    ConstItem (quotedText s ++ '_' :: (TypeTree.basic id q numbers).text)
      (⟨.string, quotedText s⟩ :: uTok :: basicToks ts q numbers)
      (.string (quotedText s) (some (.basic id q numbers))) where
  lexes := lexes_typed_string s hs hid q numbers h
  head := ⟨_, _, rfl, .inr (.inl rfl)⟩
  parses := by
    intro F rest hF hr
    obtain ⟨f, rfl⟩ : ∃ f, F = f + 1 := ⟨F - 1, by simp at hF; omega⟩
    exact parseConst_string f _ hid q numbers rest (fun _ => hr)
  last := by
    rw [ConstTree.text, optText, last_append (by simp), List.cons_append, List.nil_append,
      show ('_' :: (TypeTree.basic id q numbers).text) = ['_'] ++ (TypeTree.basic id q numbers).text
      from rfl, last_append (basic_ne_nil hid q numbers)]
    exact basic_last q numbers hl

theorem constItem_interval (x : Part) (xs : List Part) (h : ∀ y ∈ x :: xs, Name y.2.1 y.2.2)
    {name : Str} {ts : List Token} (hn : Name name ts) (q : Bool) (hl : name.getLast? ≠ some 'm') :
    ConstItem (intervalText x xs name ++ questionText q) (intervalToks x xs ts q)
      (.structLit (partTree x :: xs.map partTree) (some (.basic name q []))) where
  lexes := lexes_interval x xs h hn q
  head := ⟨_, _, rfl, .inr (.inr rfl)⟩
  parses := by
    intro F rest hF hr
    have hlen : ∀ xs : List Part, xs.length ≤ (moreToks xs).length := by
      intro xs
      induction xs with
      | nil => simp
      | cons y ys ih => simp [moreToks]; omega
    refine parseConst_interval F x xs h hn q rest hr ?_
    have := hlen xs
    simp [intervalToks] at hF
    omega
  last := by
    rw [ConstTree.text, optText, last_append (by simp), List.cons_append, List.nil_append,
      show ('}' :: '_' :: (TypeTree.basic name q []).text) =
        ['}', '_'] ++ (TypeTree.basic name q []).text from rfl, last_append (basic_ne_nil hn q [])]
    exact basic_last q [] hl

theorem ConstItem.cast {text text' : Str} {toks : List Token} {k : ConstTree}
    (h : ConstItem text toks k) (e : text' = text) : ConstItem text' toks k := e ▸ h

theorem ConstItem.parseLiteral {text : Str} {toks : List Token} {k : ConstTree}
    (h : ConstItem text toks k) : parseLiteral text = some k := by
  obtain ⟨t, r, rfl, hk⟩ := h.head
  have hl := h.lexes [';'] nameEnd_semicolon
  rw [lex_semicolon] at hl
  have hp := h.parses (4 * (t :: (r ++ [(⟨.semicolon, [';']⟩ : Token)])).length + 2)
    [⟨.semicolon, [';']⟩] (by simp; omega) tyEnd_semicolon
  have := parseLiteral_of (q := false) hl hk hp
  simpa using this

/-- The text of a literal that survives is a constant. -/
theorem literal_shape (lib : Lib) (hlib : lib.Numerals) (a : Atom) (n : Bool)
    (hnb : a.noBackslash) (hs : Survives lib a n) :
    ∃ toks k, ConstItem (printLiteral lib (.atom a n)).1 toks k := by
  have hp : ∀ v : Int, IsNumberText (intText v) := isNumberText_intText
  cases a with
  | i8 v =>
    rw [printLiteral_text rfl n]
    exact ⟨_, _, (constItem_number _ (hp v) name_i8 n [] (by simp) (by decide)).cast
      (by simp [TypeTree.text])⟩
  | i16 v =>
    rw [printLiteral_text rfl n]
    exact ⟨_, _, (constItem_number _ (hp v) name_i16 n [] (by simp) (by decide)).cast
      (by simp [TypeTree.text])⟩
  | i32 v =>
    rw [printLiteral_text rfl n]
    exact ⟨_, _, (constItem_number _ (hp v) name_i32 n [] (by simp) (by decide)).cast
      (by simp [TypeTree.text])⟩
  | i64 v =>
    rw [printLiteral_text rfl n]
    exact ⟨_, _, (constItem_number _ (hp v) name_i64 n [] (by simp) (by decide)).cast
      (by simp [TypeTree.text])⟩
  | fp32 x =>
    have hnum := (hlib.1 x).resolve_right hs.1
    rw [printLiteral_text rfl n]
    exact ⟨_, _, (constItem_number _ hnum name_fp32 n [] (by simp) (by decide)).cast
      (by simp [TypeTree.text])⟩
  | fp64 x =>
    have hnum := (hlib.2 x).resolve_right hs.1
    rw [printLiteral_text rfl n]
    exact ⟨_, _, (constItem_number _ hnum name_fp64 n [] (by simp) (by decide)).cast
      (by simp [TypeTree.text])⟩
  | date z =>
    rw [printLiteral_text rfl n]
    refine ⟨_, _, (constItem_string _ (dateText_chars z).2 name_date n [] (by simp)
      (by decide)).cast ?_⟩
    rw [quotedText_date]
    show _ ++ '"' :: '_' :: "date".toList ++ _ = _
    simp [TypeTree.text]
  | string s =>
    rw [printLiteral_text rfl n]
    exact ⟨_, _, (constItem_string _ hnb name_string n [] (by simp) (by decide)).cast
      (by simp [TypeTree.text])⟩
  | intervalYear y m =>
    rw [printLiteral_text rfl n]
    refine ⟨_, _, (constItem_interval (y, "years".toList, [idTok "years"])
      [(m, "months".toList, [idTok "months"])] ?_ name_intervalYear n (by decide)).cast
      (by simp [intervalText, partText, moreText])⟩
    intro w hw; simp at hw; rcases hw with rfl | rfl
    · exact name_years
    · exact name_months
  | intervalDay d s u =>
    rw [printLiteral_text rfl n]
    refine ⟨_, _, (constItem_interval (d, "days".toList, [idTok "days"])
      [(s, "seconds".toList, [idTok "seconds"]), (u, "microseconds".toList, [idTok "microseconds"])]
      ?_ name_intervalDay n (by decide)).cast (by simp [intervalText, partText, moreText])⟩
    intro w hw; simp at hw; rcases hw with rfl | rfl | rfl
    · exact name_days
    · exact name_seconds
    · exact name_microseconds
  | fixedChar s =>
    obtain ⟨rfl, -⟩ := hs
    rw [printLiteral_text rfl false]
    exact ⟨_, _, (constItem_string _ hnb name_fixedchar false [natText s.length]
      (by intro x hx; simp at hx; subst hx; exact isNumberText_natText _) (by decide)).cast
      (by simp [TypeTree.text, commaText, questionText])⟩
  | varChar s l =>
    obtain ⟨rfl, -⟩ := hs
    rw [printLiteral_text rfl false]
    exact ⟨_, _, (constItem_string _ hnb name_varchar false [intText l]
      (by intro x hx; simp at hx; subst hx; exact hp _) (by decide)).cast
      (by simp [TypeTree.text, commaText, questionText])⟩
  | decimal d =>
    obtain ⟨rfl, -⟩ := hs
    have hnb : IsNumberText (Decimal.fromProto d).toBaseString := by
      obtain ⟨n, _, h | h⟩ := toBaseString_form (Decimal.fromProto d)
      · rw [h]; exact isNumberText_natText n
      · rw [h]; exact isNumberText_negative n
    rw [printLiteral_text rfl false]
    exact ⟨_, _, (constItem_number _ hnb name_decimal false [intText d.precision, intText d.scale]
      (by intro x hx; simp at hx; rcases hx with rfl | rfl <;> exact hp _) (by decide)).cast
      (by simp [TypeTree.text, commaText, questionText])⟩
  | _ => exact absurd hs (by simp [Survives])

theorem literal_item (c : Context) (hlib : c.lib.Numerals) {l : PbLit} (h : LiteralOk c l) :
    ∃ text toks k, printLiteral c.lib l = (text, []) ∧ ConstItem text toks k ∧
      visitConst c.lib false none k = .ok (l, []) := by
  cases l with
  | atom a n =>
    obtain ⟨h1, h2, h3⟩ := h
    obtain ⟨toks, k, hk⟩ := literal_shape c.lib hlib a n h2 h3
    obtain ⟨h4, h5⟩ := (literal_roundtrip c.lib hlib a n h1 h2).mpr h3
    refine ⟨_, toks, k, Prod.ext rfl h4, hk, ?_⟩
    unfold readLiteral at h5
    rw [hk.parseLiteral, Option.map_some] at h5
    exact Option.some.inj h5
  | _ => exact absurd h (by simp [LiteralOk])

/-! ## Words and blanks -/

theorem Lexes.sp {a b : Str} {ts us : List Token} {q : Str → Prop} (h : Lexes a ts NameEnd)
    (h' : Lexes b us q) : Lexes (a ++ ' ' :: b) (ts ++ us) q :=
  Lexes.append h (Lexes.append (Ext.lexes_blank1 (fun _ => True)) h' (fun _ _ => trivial))
    (fun _ _ => nameEnd_cons _ _ (by decide))

theorem Lexes.cast {a a' : Str} {ts ts' : List Token} {q : Str → Prop} (h : Lexes a ts q)
    (ha : a' = a) (ht : ts' = ts) : Lexes a' ts' q := by subst ha; subst ht; exact h

theorem lexes_subquery : Lexes "SUBQUERY".toList [⟨.subquery, "SUBQUERY".toList⟩] NameEnd :=
  Ext.lexes_word _ 'S' "UBQUERY".toList .subquery (by decide) (by decide) (by decide +kernel)
    (by decide) (by decide)
theorem lexes_in : Lexes "IN".toList [⟨.in, "IN".toList⟩] NameEnd :=
  Ext.lexes_word _ 'I' "N".toList .in (by decide) (by decide) (by decide +kernel)
    (by decide) (by decide)
theorem lexes_exists : Lexes "EXISTS".toList [⟨.exists, "EXISTS".toList⟩] NameEnd :=
  Ext.lexes_word _ 'E' "XISTS".toList .exists (by decide) (by decide) (by decide +kernel)
    (by decide) (by decide)
theorem lexes_unique : Lexes "UNIQUE".toList [⟨.unique, "UNIQUE".toList⟩] NameEnd :=
  Ext.lexes_word _ 'U' "NIQUE".toList .unique (by decide) (by decide) (by decide +kernel)
    (by decide) (by decide)
theorem lexes_as : Lexes "AS".toList [⟨.as, "AS".toList⟩] NameEnd :=
  Ext.lexes_word _ 'A' "S".toList .as (by decide) (by decide) (by decide +kernel)
    (by decide) (by decide)
theorem lexes_any : Lexes "ANY".toList [⟨.any, "ANY".toList⟩] NameEnd :=
  Ext.lexes_word _ 'A' "NY".toList .any (by decide) (by decide) (by decide +kernel)
    (by decide) (by decide)
theorem lexes_all : Lexes "ALL".toList [⟨.all, "ALL".toList⟩] NameEnd :=
  Ext.lexes_word _ 'A' "LL".toList .all (by decide) (by decide) (by decide +kernel)
    (by decide) (by decide)

theorem lexes_leftParen (ok : Str → Prop) : Lexes ['('] [leftParen] ok :=
  lexes_sign '(' .leftParen (by simp [signs]) rfl _
theorem lexes_rightParen (ok : Str → Prop) : Lexes [')'] [rightParen] ok :=
  lexes_sign ')' .rightParen (by simp [signs]) rfl _

theorem lexes_spaces : ∀ (n : Nat) (ok : Str → Prop), Lexes (List.replicate n ' ') [] ok
  | 0, ok => Lexes.nil ok
  | n + 1, ok => by
    have := Lexes.append (Ext.lexes_blank1 (fun _ => True)) (lexes_spaces n ok)
      (fun _ _ => trivial)
    exact this

theorem lexes_indent (d : Nat) (ok : Str → Prop) : Lexes (indent d) [] ok := by
  unfold indent
  split
  · exact Lexes.nil ok
  · have := Lexes.append (lexes_blank '\n' (.inr rfl) (fun _ => True)) (lexes_spaces (2 * (d + 1)) ok)
      (fun _ _ => trivial)
    exact this

theorem name_ifthen : Name "IFTHEN".toList [idTok "IFTHEN"] := name_of (by decide +kernel)

theorem rightParen_not_id : ¬ isSimpleId .rightParen = true := by decide

/-! ## Tokens of keywords -/

def subTok : Token := ⟨.subquery, "SUBQUERY".toList⟩
def inTok : Token := ⟨.in, "IN".toList⟩
def asTok : Token := ⟨.as, "AS".toList⟩
def arrowTok : Token := ⟨.arrow, "->".toList⟩
def predTok (exist : Bool) : Token :=
  if exist then ⟨.exists, "EXISTS".toList⟩ else ⟨.unique, "UNIQUE".toList⟩
def redTok (all : Bool) : Token :=
  if all then ⟨.all, "ALL".toList⟩ else ⟨.any, "ANY".toList⟩

theorem lexes_pred (exist : Bool) : Lexes (predTok exist).text [predTok exist] NameEnd := by
  cases exist
  · exact lexes_unique
  · exact lexes_exists
theorem lexes_red (all : Bool) : Lexes (redTok all).text [redTok all] NameEnd := by
  cases all
  · exact lexes_any
  · exact lexes_all
theorem lexes_sub' : Lexes subTok.text [subTok] NameEnd := lexes_subquery
theorem lexes_in' : Lexes inTok.text [inTok] NameEnd := lexes_in
theorem lexes_as' : Lexes asTok.text [asTok] NameEnd := lexes_as
theorem lexes_arrow' (ok : Str → Prop) : Lexes arrowTok.text [arrowTok] ok := lexes_arrow ok
theorem subText : "SUBQUERY ".toList = subTok.text ++ [' '] := by decide
theorem inText : " IN SUBQUERY ".toList = ' ' :: inTok.text ++ ' ' :: subTok.text ++ [' '] := by
  decide
theorem asText : " AS ".toList = ' ' :: asTok.text ++ [' '] := by decide
theorem arrowText : ")->".toList = ')' :: arrowTok.text := by decide
theorem subTok_kind : subTok.kind = .subquery := rfl
theorem inTok_kind : inTok.kind = .in := rfl
theorem asTok_kind : asTok.kind = .as := rfl
theorem arrowTok_kind : arrowTok.kind = .arrow := rfl

/-- The word `IFTHEN`. -/
def ifName : Str := "IFTHEN".toList

/-! ## The kinds of expression -/

/-- An alternative of the grammar that does not start with an expression. -/
theorem good_primary {i : Item} (hl : Lexes i.text i.toks NameEnd)
    (hh : ∃ t r, i.toks = t :: r ∧ t.kind ≠ .rightParen)
    (hp : ∀ f rest, 4 * i.toks.length ≤ f + 2 → TailOk rest →
      parsePrimary (f + 1) (i.toks ++ rest) = some (i.tree, rest)) : Good i where
  lexes := hl
  head := hh
  parses := by
    obtain ⟨t, r, ht, -⟩ := hh
    refine ⟨1, by rw [ht]; simp; omega, fun F hF rest hr => ?_⟩
    have : 4 ≤ F := by rw [ht] at hF; simp at hF; omega
    obtain ⟨f, rfl⟩ : ∃ f, F = f + 1 + 1 := ⟨F - 2, by omega⟩
    rw [parseExpr, hp f rest hF hr]
    rfl

theorem good_const {text : Str} {toks : List Token} {k : ConstTree} (h : ConstItem text toks k) :
    Good ⟨text, toks, .const k⟩ := by
  obtain ⟨t, r, rfl, hk⟩ := h.head
  refine good_primary h.lexes ⟨t, r, rfl, ?_⟩ ?_
  · intro e; rw [e] at hk; rcases hk with hk | hk | hk <;> exact absurd hk (by decide)
  · intro f rest hf hr
    have := h.parses f rest (by simp at hf ⊢; omega) hr.1
    simp only [List.cons_append] at this ⊢
    rcases hk with hk | hk | hk <;> simp [parsePrimary, hk, this]

/-- An alternative that starts with an identifier. -/
theorem primary_id {s : Str} {ts : List Token} (hn : Name s ts) (f : Nat) (rest : List Token)
    (hu : nextIs .underscore rest = false) :
    parsePrimary (f + 1) (ts ++ rest) =
      if nextIs .leftParen rest then
        (parseArgs f rest.tail).bind fun a => (parseArrow f a.2).map fun r =>
          (.call s a.1.1 a.1.2 r.1, r.2)
      else if nextIs .period rest then parseColumn s rest
      else if nextIs .null ts then (parseConst f (ts ++ rest)).map fun c => (.const c.1, c.2)
      else parseColumn s rest := by
  obtain ⟨t, r, rfl, ht⟩ := hn.head
  have hp := hn.parse_append rest hu
  simp only [List.cons_append] at hp ⊢
  have hnull : (nextIs .null (t :: r) = true) = (t.kind = .null) := by simp [nextIs]
  rw [parsePrimary]
  cases hk : t.kind <;> first
    | (rw [hk] at ht; exact absurd ht (by decide))
    | simp [hp, nextIs, hk]

/-- The tokens of the name of a column. -/
theorem good_column {s : Str} (h : IsColumn s) :
    ∃ toks tree, Good ⟨s, toks, tree⟩ ∧ tree.text = s ∧
      ∃ schema id, tree = .column schema id := by
  rcases h with ⟨ts, hl, hp, hnull⟩ | ⟨a, b, rfl, ha, hb⟩
  · have hn : Name s ts := Name.of_parse hl hp
    refine ⟨ts, .column none s, good_primary hn.lexes_ ?_ ?_, by simp [ExprTree.text], _, _, rfl⟩
    · obtain ⟨t, r, rfl, ht⟩ := hn.head
      exact ⟨t, r, rfl, fun e => rightParen_not_id (e ▸ ht)⟩
    · intro f rest hf hr
      rw [primary_id hn f rest hr.1.1]
      simp [hr.2.1, hr.2.2.1, hnull, parseColumn]
  · have h1 := ha.name
    have h2 := hb.name
    have hper : Lexes ['.'] [⟨.period, ['.']⟩] (fun _ => True) :=
      lexes_sign '.' .period (by simp [signs]) rfl _
    have hlex := Lexes.append h1.lexes_ (Lexes.append hper h2.lexes_ (fun _ _ => trivial))
      (fun _ _ => nameEnd_cons _ _ (by decide))
    refine ⟨_, .column (some a) b, good_primary hlex ?_ ?_, by simp [ExprTree.text], _, _, rfl⟩
    · obtain ⟨t, r, ht, hk⟩ := h1.head
      exact ⟨t, r ++ ([⟨.period, ['.']⟩] ++ Ext.toksOf b), by simp [ht],
        fun e => rightParen_not_id (e ▸ hk)⟩
    · intro f rest hf hr
      have h3 := h2.parse_append rest hr.1.1
      simp only [List.append_assoc, List.singleton_append]
      rw [primary_id h1 f _ (by simp [nextIs])]
      simp [nextIs, parseColumn, h3]

/-- A call. -/
theorem good_call {s : Str} {ts : List Token} (hn : Name s ts) (d : Nat) {is : List Item}
    (his : ∀ i ∈ is, Good i) {id : Str} {us : List Token} (hid : Name id us) (q : Bool)
    (numbers : List Str) (hx : ∀ x ∈ numbers, IsNumberText x) :
    Good ⟨indent d ++ s ++ '(' :: listText (is.map (·.text)) ++ ")->".toList ++
          (TypeTree.basic id q numbers).text,
      ts ++ leftParen :: (itemsToks is ++ rightParen :: arrowTok ::
        basicToks us q numbers),
      .call s (is.map (·.tree)) (commasOf is) (some (.basic id q numbers))⟩ := by
  refine good_primary ?_ ?_ ?_
  · have h1 := Lexes.append (lexes_arrow' (fun _ => True)) (lexes_basic hid q numbers hx)
      (fun _ _ => trivial)
    have h2 := Lexes.append (lexes_rightParen (fun _ => True)) h1 (fun _ _ => trivial)
    have h3 := Lexes.append (lexes_items is his) h2 (fun _ _ => nameEnd_cons _ _ (by decide))
    have h4 := Lexes.append (lexes_leftParen (fun _ => True)) h3 (fun _ _ => trivial)
    have h5 := Lexes.append hn.lexes_ h4 (fun _ _ => nameEnd_cons _ _ (by decide))
    have h6 := Lexes.append (lexes_indent d (fun _ => True)) h5 (fun _ _ => trivial)
    refine Lexes.cast h6 ?_ ?_
    · rw [arrowText]; simp
    · simp
  · obtain ⟨t, r, rfl, ht⟩ := hn.head
    exact ⟨t, _, rfl, fun e => rightParen_not_id (e ▸ ht)⟩
  · intro f rest hf hr
    simp only [List.append_assoc, List.cons_append]
    rw [primary_id hn f _ (by simp [nextIs, leftParen])]
    have h1 := parseArgs_items is his f (arrowTok :: (basicToks us q numbers ++ rest))
      (by simp at hf; omega)
    obtain ⟨g, rfl⟩ : ∃ g, f = g + 1 := ⟨f - 1, by simp at hf; omega⟩
    have h2 := parseType_toks hid q numbers rest (fun _ => hr.1) g
    have h3 : parseArrow (g + 1) (arrowTok :: (basicToks us q numbers ++ rest)) =
        some (some (.basic id q numbers), rest) := by
      simp [parseArrow, nextIs, arrowTok_kind, h2]
    rw [if_pos (by simp [nextIs, leftParen])]
    simp only [List.tail_cons, h1, Option.bind_some, h3, Option.map_some]

/-- An if-then. -/
theorem good_ifThen {is : List Item} (his : ∀ i ∈ is, Good i) :
    Good ⟨"IFTHEN(".toList ++ listText (is.map (·.text)) ++ [')'],
      idTok "IFTHEN" :: leftParen :: (itemsToks is ++ [rightParen]),
      .call "IFTHEN".toList (is.map (·.tree)) (commasOf is) none⟩ := by
  refine good_primary ?_ ⟨_, _, rfl, by decide⟩ ?_
  · have h3 := Lexes.append (lexes_items is his) (lexes_rightParen NameEnd)
      (fun _ _ => nameEnd_cons _ _ (by decide))
    have h4 := Lexes.append (lexes_leftParen (fun _ => True)) h3 (fun _ _ => trivial)
    have h5 := Lexes.append name_ifthen.lexes_ h4 (fun _ _ => nameEnd_cons _ _ (by decide))
    refine Lexes.cast h5 ?_ ?_
    · rw [show "IFTHEN(".toList = "IFTHEN".toList ++ ['('] by decide]; simp
    · simp
  · intro f rest hf hr
    have h0 := primary_id name_ifthen f (leftParen :: (itemsToks is ++ rightParen :: rest))
      (by simp [nextIs, leftParen])
    have h1 := parseArgs_items is his f rest (by simp at hf; omega)
    simp only [List.singleton_append] at h0
    simp only [List.append_assoc, List.cons_append, List.nil_append]
    rw [h0]
    have h3 : parseArrow f rest = some (none, rest) := by simp [parseArrow, hr.2.2.2]
    rw [if_pos (by simp [nextIs, leftParen])]
    simp only [List.tail_cons, h1, Option.bind_some, h3, Option.map_some]

/-- A cast. -/
theorem good_cast {i : Item} (h : Good i) {id : Str} {us : List Token} (hid : Name id us)
    (q : Bool) (numbers : List Str) (hx : ∀ x ∈ numbers, IsNumberText x) :
    Good ⟨i.text ++ " AS ".toList ++ (TypeTree.basic id q numbers).text,
      i.toks ++ asTok :: basicToks us q numbers,
      .cast i.tree asTok.text (.basic id q numbers)⟩ where
  lexes := by
    refine Lexes.cast (Lexes.sp h.lexes (Lexes.sp lexes_as' (lexes_basic hid q numbers hx))) ?_ ?_
    · rw [asText]; simp
    · simp
  head := by
    obtain ⟨t, r, ht, hk⟩ := h.head
    exact ⟨t, r ++ asTok :: basicToks us q numbers, by simp [ht], hk⟩
  parses := by
    obtain ⟨m, hm, hp⟩ := h.parses
    refine ⟨m + 1, by simp; omega, fun F hF rest hr => ?_⟩
    simp only [List.append_assoc, List.cons_append]
    simp only [List.length_append, List.length_cons] at hF
    rw [hp F (by omega) _ (tailOk_cons _ _ (by simp [asTok_kind]))]
    obtain ⟨g, hg⟩ : ∃ g, F - m = g + 1 + 1 := ⟨F - m - 2, by omega⟩
    have hg' : F - (m + 1) = g + 1 := by omega
    have h2 := parseType_toks hid q numbers rest (fun _ => hr.1) g
    rw [hg, hg', parsePostfix.eq_def]
    simp [asTok_kind, h2]

theorem parseRef_ok {n : Str} (h : Ext.IsName n) (rest : List Token) (hr : TailOk rest) :
    Parse.parseRef (Ext.toksOf n ++ rest) = some (⟨n, none⟩, rest) := by
  unfold Parse.parseRef
  rw [h.name.parse_append rest hr.1.1]
  simp only [Option.bind_some]
  match rest, hr with
  | [], _ => rfl
  | [a], _ => rfl
  | a :: b :: r, hr =>
    have : ¬ a.kind = .leftParen := by simpa [nextIs] using hr.2.1
    simp [this]

/-- A scalar subquery. -/
theorem good_scalar {n : Str} (h : Ext.IsName n) :
    Good ⟨"SUBQUERY ".toList ++ n, subTok :: Ext.toksOf n,
      .scalarSubquery subTok.text ⟨n, none⟩⟩ := by
  refine good_primary ?_ ⟨_, _, rfl, by decide⟩ ?_
  · refine Lexes.cast (Lexes.sp lexes_sub' h.name.lexes_) ?_ ?_
    · rw [subText]; simp
    · simp
  · intro f rest hf hr
    simp [parsePrimary, subTok_kind, parseSubquery, parseRef_ok h rest hr]

theorem parseInSubquery_ok {n : Str} (h : Ext.IsName n) (rest : List Token) (hr : TailOk rest) :
    parseInSubquery (inTok :: subTok ::
        (Ext.toksOf n ++ rest)) =
      some ((inTok.text ++ subTok.text), ⟨n, none⟩, rest) := by
  simp [parseInSubquery, inTok_kind, subTok_kind, parseSubquery, parseRef_ok h rest hr]

/-- A set predicate. -/
theorem good_setPredicate {n : Str} (h : Ext.IsName n) (exist : Bool) :
    Good ⟨(predTok exist).text ++ " IN SUBQUERY ".toList ++ n,
      predTok exist ::
        inTok :: subTok :: Ext.toksOf n,
      .setPredicate exist ((predTok exist).text ++
        (inTok.text ++ subTok.text)) ⟨n, none⟩⟩ := by
  refine good_primary ?_ ⟨_, _, rfl, by cases exist <;> decide⟩ ?_
  · refine Lexes.cast (Lexes.sp (lexes_pred exist) (Lexes.sp lexes_in' (Lexes.sp lexes_sub' h.name.lexes_)))
      ?_ ?_
    · rw [inText]; simp
    · simp
  · intro f rest hf hr
    have := parseInSubquery_ok h rest hr
    cases exist <;> simp [predTok, parsePrimary, this]

/-- A predicate `IN`. -/
theorem good_in {n : Str} (h : Ext.IsName n) {i : Item} {is : List Item}
    (his : ∀ j ∈ i :: is, Good j) :
    Good ⟨'(' :: listText ((i :: is).map (·.text)) ++ ')' :: " IN SUBQUERY ".toList ++ n,
      leftParen :: (itemsToks (i :: is) ++ rightParen :: inTok ::
        subTok :: Ext.toksOf n),
      .inSubquery ((i :: is).map (·.tree)) (inTok.text ++ subTok.text) ⟨n, none⟩⟩ := by
  refine good_primary ?_ ⟨_, _, rfl, by decide⟩ ?_
  · have h1 := Lexes.sp (Lexes.mono (lexes_rightParen NameEnd) (fun _ h => h))
      (Lexes.sp lexes_in' (Lexes.sp lexes_sub' h.name.lexes_))
    have h3 := Lexes.append (lexes_items (i :: is) his) h1
      (fun _ _ => nameEnd_cons _ _ (by decide))
    have h4 := Lexes.append (lexes_leftParen (fun _ => True)) h3 (fun _ _ => trivial)
    refine Lexes.cast h4 ?_ ?_
    · rw [inText]; simp
    · simp
  · intro f rest hf hr
    have hi := his i (by simp)
    have hm : ∀ j ∈ is, Good j := fun j hj => his j (by simp [hj])
    have h0 := parseInSubquery_ok h rest hr
    rw [itemsToks_cons] at hf ⊢
    simp only [List.length_append, List.length_cons] at hf
    have h1 := hi.parse_end f (by omega)
      (moreItems is ++ rightParen :: inTok :: subTok ::
        (Ext.toksOf n ++ rest)) (more_tail is _).1 (more_tail is _).2
    have h2 := parseMore_items is hm f (inTok :: subTok ::
        (Ext.toksOf n ++ rest)) (by omega)
    simp only [List.append_assoc, List.cons_append]
    rw [show leftParen = ⟨.leftParen, ['(']⟩ from rfl, parsePrimary]
    simp only [h1, Option.bind_some, h2]
    simp [expect, rightParen, h0]

/-- A set comparison. -/
theorem good_setComparison {i : Item} (h : Good i) {n : Str} (hn : Ext.IsName n) {op : Str}
    (hop : Lexes op [⟨.comparison, op⟩] NameEnd) (all : Bool) :
    Good ⟨i.text ++ ' ' :: op ++ ' ' :: (redTok all).text ++
          ' ' :: "SUBQUERY ".toList ++ n,
      i.toks ++ ⟨.comparison, op⟩ ::
        redTok all ::
        subTok :: Ext.toksOf n,
      .setComparison i.tree op all ((redTok all).text ++
        subTok.text) ⟨n, none⟩⟩ where
  lexes := by
    refine Lexes.cast (Lexes.sp h.lexes (Lexes.sp hop (Lexes.sp (lexes_red all)
      (Lexes.sp lexes_sub' hn.name.lexes_)))) ?_ ?_
    · rw [subText]; simp
    · simp
  head := by
    obtain ⟨t, r, ht, hk⟩ := h.head
    exact ⟨t, _, by rw [ht]; rfl, hk⟩
  parses := by
    obtain ⟨m, hm, hp⟩ := h.parses
    refine ⟨m + 1, by simp; omega, fun F hF rest hr => ?_⟩
    simp only [List.append_assoc, List.cons_append]
    simp only [List.length_append, List.length_cons] at hF
    rw [hp F (by omega) _ (tailOk_cons _ _ (by simp))]
    obtain ⟨g, hg⟩ : ∃ g, F - m = g + 1 := ⟨F - m - 1, by omega⟩
    have hg' : F - (m + 1) = g := by omega
    rw [hg, hg', parsePostfix.eq_def]
    cases all <;> simp [redTok, parseSubquery, subTok_kind, parseRef_ok hn rest hr]

end Verif.Expr
