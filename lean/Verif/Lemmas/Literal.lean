import Verif.Spec.Literal
import Verif.Lemmas.Parser
import Verif.Lemmas.Date
import Verif.Prop.StringLiteral
import Verif.Prop.Decimal
import Verif.Prop.TypeProto

/-! # Lemmas on literals -/

namespace Verif.Literal

open Verif Verif.Ty Verif.TyPb Verif.Tree Verif.Lex Verif.Parse

instance (s : Str) : Decidable (IsIdText s) := inferInstanceAs (Decidable (_ ∧ _))

/-! ## Names -/

theorem name_of {s : Str} {ts : List Token} (h : decide (Name s ts) = true) : Name s ts :=
  of_decide_eq_true h

/-- The tokens of a word. -/
def idTok (s : String) : Token := ⟨.identifier, s.toList⟩

/-- The token of an underscore. -/
def uTok : Token := ⟨.underscore, ['_']⟩

theorem name_i8 : Name "i8".toList [idTok "i8"] := name_of (by decide +kernel)
theorem name_i16 : Name "i16".toList [idTok "i16"] := name_of (by decide +kernel)
theorem name_i32 : Name "i32".toList [idTok "i32"] := name_of (by decide +kernel)
theorem name_i64 : Name "i64".toList [idTok "i64"] := name_of (by decide +kernel)
theorem name_fp32 : Name "fp32".toList [idTok "fp32"] := name_of (by decide +kernel)
theorem name_fp64 : Name "fp64".toList [idTok "fp64"] := name_of (by decide +kernel)
theorem name_bool : Name "bool".toList [idTok "bool"] := name_of (by decide +kernel)
theorem name_date : Name "date".toList [idTok "date"] := name_of (by decide +kernel)
theorem name_string : Name "string".toList [idTok "string"] := name_of (by decide +kernel)
theorem name_fixedchar : Name "fixedchar".toList [idTok "fixedchar"] := name_of (by decide +kernel)
theorem name_varchar : Name "varchar".toList [idTok "varchar"] := name_of (by decide +kernel)
theorem name_decimal : Name "decimal".toList [idTok "decimal"] := name_of (by decide +kernel)
theorem name_intervalYear : Name "interval_year".toList [idTok "interval", uTok, idTok "year"] :=
  name_of (by decide +kernel)
theorem name_intervalDay : Name "interval_day".toList [idTok "interval", uTok, idTok "day"] :=
  name_of (by decide +kernel)
theorem name_years : Name "years".toList [idTok "years"] := name_of (by decide +kernel)
theorem name_months : Name "months".toList [idTok "months"] := name_of (by decide +kernel)
theorem name_days : Name "days".toList [idTok "days"] := name_of (by decide +kernel)
theorem name_seconds : Name "seconds".toList [idTok "seconds"] := name_of (by decide +kernel)
theorem name_microseconds : Name "microseconds".toList [idTok "microseconds"] :=
  name_of (by decide +kernel)

/-! ## Parsing -/

/-- No expression goes on here. -/
def ExprEnd (rest : List Token) : Prop :=
  nextIs .as rest = false ∧ nextIs .comparison rest = false

/-- The token can start a constant and nothing else. -/
def startsConst (k : Tk) : Prop := k = .number ∨ k = .string ∨ k = .leftBrace

theorem parsePostfix_end (f : Nat) (e : ExprTree) (rest : List Token) (h : ExprEnd rest) :
    parsePostfix (f + 1) e rest = some (e, rest) := by
  cases rest with
  | nil => rfl
  | cons a r =>
    have h1 : ¬ a.kind = .as := by simpa [nextIs] using h.1
    have h2 : ¬ a.kind = .comparison := by simpa [nextIs] using h.2
    simp [parsePostfix, h1, h2]

theorem parseExpr_const (f : Nat) (t : Token) (ts rest : List Token) (c : ConstTree)
    (hk : startsConst t.kind) (hp : parseConst f (t :: ts) = some (c, rest)) (h : ExprEnd rest) :
    parseExpr (f + 2) (t :: ts) = some (.const c, rest) := by
  have h1 : parsePrimary (f + 1) (t :: ts) = some (.const c, rest) := by
    rcases hk with hk | hk | hk <;> simp [parsePrimary, hk, hp]
  simp [parseExpr, h1, parsePostfix_end f _ _ h]

theorem exprOf_const (t : Token) (ts rest : List Token) (c : ConstTree)
    (hk : startsConst t.kind) (h : ExprEnd rest)
    (hp : parseConst (4 * (t :: ts).length + 2) (t :: ts) = some (c, rest)) :
    exprOf (t :: ts) = some (.const c, rest) := by
  unfold exprOf
  rw [show rounds (t :: ts) = 4 * (t :: ts).length + 2 + 2 from rfl]
  exact parseExpr_const _ t ts rest c hk hp h

/-- The tokens of the end of the text. -/
def endToks (q : Bool) : List Token := questionToks q ++ [⟨.semicolon, [';']⟩]

theorem exprEnd_endToks (q : Bool) : ExprEnd (endToks q) := by
  cases q <;> exact ⟨rfl, rfl⟩

theorem tyEnd_semicolon : TyEnd [⟨.semicolon, [';']⟩] := by
  refine ⟨?_, ?_, ?_⟩ <;> decide

/-- A text whose tokens start a constant. -/
theorem parseLiteral_of {text : Str} {t : Token} {ts : List Token} {c : ConstTree} {q : Bool}
    (hl : lex (text ++ [';']) = some (t :: ts)) (hk : startsConst t.kind)
    (hp : parseConst (4 * (t :: ts).length + 2) (t :: ts) = some (c, endToks q)) :
    parseLiteral text = if q then none else some c := by
  unfold parseLiteral
  rw [hl, Option.bind_some, exprOf_const t ts _ c hk (exprEnd_endToks q) hp]
  cases q <;> rfl

theorem lex_semicolon : lex [';'] = some [⟨.semicolon, [';']⟩] := by decide +kernel

theorem nextIs_false {k k' : Tk} {s : Str} {ts : List Token} (h : k' ≠ k) :
    nextIs k (⟨k', s⟩ :: ts) = false := by simp [nextIs, h]

/-- A number with a type behind it. -/
theorem parseConst_number (f : Nat) (n : Str) {id : Str} {ts : List Token} (hid : Name id ts)
    (q : Bool) (numbers : List Str) (rest : List Token) (hr : numbers = [] → TyEnd rest) :
    parseConst (f + 1) (⟨.number, n⟩ :: uTok :: (basicToks ts q numbers ++ rest)) =
      some (.number n (some (.basic id q numbers)), rest) := by
  have hb := parseBasic_toks hid q numbers rest hr
  simp [parseConst, parseSuffixBasic, nextIs, uTok, hb]

/-- A string with a type behind it. -/
theorem parseConst_string (f : Nat) (n : Str) {id : Str} {ts : List Token} (hid : Name id ts)
    (q : Bool) (numbers : List Str) (rest : List Token) (hr : numbers = [] → TyEnd rest) :
    parseConst (f + 1) (⟨.string, n⟩ :: uTok :: (basicToks ts q numbers ++ rest)) =
      some (.string n (some (.basic id q numbers)), rest) := by
  have hb := parseBasic_toks hid q numbers rest hr
  simp [parseConst, parseSuffixBasic, nextIs, uTok, hb]

/-! ## Texts with a type behind them -/

theorem lexes_underscore (ok : Str → Prop) : Lexes ['_'] [uTok] ok :=
  lexes_sign '_' .underscore (by simp [signs]) rfl ok

theorem numEnd_underscore (r : Str) : NumEnd ('_' :: r) :=
  numEnd_cons _ _ (by decide) (by decide) (by decide) (by decide)

theorem nameEnd_semicolon : NameEnd [';'] := nameEnd_cons _ _ (by decide)

/-- Text of a number with a type. -/
theorem lexes_typed_number (n : Str) (hn : IsNumberText n) {id : Str} {ts : List Token}
    (hid : Name id ts) (q : Bool) (numbers : List Str) (h : ∀ x ∈ numbers, IsNumberText x) :
    Lexes (n ++ '_' :: (TypeTree.basic id q numbers).text)
      (⟨.number, n⟩ :: uTok :: basicToks ts q numbers) NameEnd := by
  have h1 := Lexes.append (lexes_underscore (fun _ => True)) (lexes_basic hid q numbers h)
    (fun _ _ => trivial)
  exact Lexes.append (lexes_number n hn) h1 (fun rest _ => numEnd_underscore _)

theorem lexes_quoted (s : Str) (h : '\\' ∉ s) (ok : Str → Prop) :
    Lexes (quotedText s) [⟨.string, quotedText s⟩] ok := by
  intro rest _
  have hs : Step (quotedText s) rest .string :=
    ⟨by simp [quotedText], StrLit.quoted_token_partial s rest h, by simp⟩
  rw [lex_step _ rest .string hs]
  rfl

/-- Text of a string with a type. -/
theorem lexes_typed_string (s : Str) (hs : '\\' ∉ s) {id : Str} {ts : List Token}
    (hid : Name id ts) (q : Bool) (numbers : List Str) (h : ∀ x ∈ numbers, IsNumberText x) :
    Lexes (quotedText s ++ '_' :: (TypeTree.basic id q numbers).text)
      (⟨.string, quotedText s⟩ :: uTok :: basicToks ts q numbers) NameEnd := by
  have h1 := Lexes.append (lexes_underscore (fun _ => True)) (lexes_basic hid q numbers h)
    (fun _ _ => trivial)
  exact Lexes.append (lexes_quoted s hs (fun _ => True)) h1 (fun rest _ => trivial)

/-- A type without parameters: the question mark is part of it. -/
theorem parse_number_plain (n : Str) (hn : IsNumberText n) {id : Str} {ts : List Token}
    (hid : Name id ts) (q : Bool) :
    parseLiteral (n ++ '_' :: id ++ questionText q) = some (.number n (some (.basic id q []))) := by
  have hl := lexes_typed_number n hn hid q [] (by simp) [';'] nameEnd_semicolon
  have ht : n ++ '_' :: id ++ questionText q ++ [';'] =
      n ++ '_' :: (TypeTree.basic id q []).text ++ [';'] := by
    simp [TypeTree.text]
  have := parseLiteral_of (q := false) (text := n ++ '_' :: id ++ questionText q)
    (by rw [ht, hl, lex_semicolon]; rfl) (.inl rfl)
    (parseConst_number _ n hid q [] _ (fun _ => tyEnd_semicolon))
  simpa using this

theorem parse_string_plain (s : Str) (hs : '\\' ∉ s) {id : Str} {ts : List Token}
    (hid : Name id ts) (q : Bool) :
    parseLiteral (quotedText s ++ '_' :: id ++ questionText q) =
      some (.string (quotedText s) (some (.basic id q []))) := by
  have hl := lexes_typed_string s hs hid q [] (by simp) [';'] nameEnd_semicolon
  have ht : quotedText s ++ '_' :: id ++ questionText q ++ [';'] =
      quotedText s ++ '_' :: (TypeTree.basic id q []).text ++ [';'] := by
    simp [TypeTree.text]
  have := parseLiteral_of (q := false) (text := quotedText s ++ '_' :: id ++ questionText q)
    (by rw [ht, hl, lex_semicolon]; rfl) (.inr (.inl rfl))
    (parseConst_string _ (quotedText s) hid q [] _ (fun _ => tyEnd_semicolon))
  simpa using this

theorem nameEnd_question (q : Bool) : NameEnd (questionText q ++ [';']) := by
  cases q
  · exact nameEnd_semicolon
  · exact nameEnd_cons _ _ (by decide)

theorem lex_end (q : Bool) : lex (questionText q ++ [';']) = some (endToks q) := by
  cases q <;> decide +kernel

/-- A type with parameters: a question mark after them is a syntax error. -/
theorem parse_number_params (n : Str) (hn : IsNumberText n) {id : Str} {ts : List Token}
    (hid : Name id ts) (numbers : List Str) (hne : numbers ≠ [])
    (h : ∀ x ∈ numbers, IsNumberText x) (q : Bool) :
    parseLiteral (n ++ '_' :: (TypeTree.basic id false numbers).text ++ questionText q) =
      if q then none else some (.number n (some (.basic id false numbers))) := by
  have hl := lexes_typed_number n hn hid false numbers h (questionText q ++ [';'])
    (nameEnd_question q)
  exact parseLiteral_of (q := q)
    (by rw [List.append_assoc, hl, lex_end]; rfl) (.inl rfl)
    (parseConst_number _ n hid false numbers _ (fun e => absurd e hne))

theorem parse_string_params (s : Str) (hs : '\\' ∉ s) {id : Str} {ts : List Token}
    (hid : Name id ts) (numbers : List Str) (hne : numbers ≠ [])
    (h : ∀ x ∈ numbers, IsNumberText x) (q : Bool) :
    parseLiteral (quotedText s ++ '_' :: (TypeTree.basic id false numbers).text ++ questionText q) =
      if q then none else some (.string (quotedText s) (some (.basic id false numbers))) := by
  have hl := lexes_typed_string s hs hid false numbers h (questionText q ++ [';'])
    (nameEnd_question q)
  exact parseLiteral_of (q := q)
    (by rw [List.append_assoc, hl, lex_end]; rfl) (.inr (.inl rfl))
    (parseConst_string _ (quotedText s) hid false numbers _ (fun e => absurd e hne))

/-! ## Reading the types -/

theorem typeFor_basic (inside : Bool) {id : Str} (q : Bool) {numbers : List Str}
    (hid : IsIdText id) (hkw : id.map toLower ∉ typeKeywords)
    (hn : ∀ x ∈ numbers, IsNumberText x) {t : PbType} {errs : List TypeErr}
    (ho : basicOut inside id q numbers = some (t, errs)) :
    typeFor inside none (some (.basic id q numbers)) = .ok (some t, errs.map .type) := by
  have := res_text (res_basic inside q hid hkw hn)
  rw [ho] at this
  show (textToTypeProto inside (TypeTree.basic id q numbers).text).map _ = _
  rw [this]
  rfl

theorem after_nil (o : Outcome Read) : after [] o = o := by
  cases o <;> rfl

theorem visit_number (lib : Lib) (n : Str) {id : Str} (q : Bool) {numbers : List Str}
    (hid : IsIdText id) (hkw : id.map toLower ∉ typeKeywords)
    (hn : ∀ x ∈ numbers, IsNumberText x) {t : PbType} {errs : List TypeErr}
    (ho : basicOut false id q numbers = some (t, errs)) :
    visitConst lib false none (.number n (some (.basic id q numbers))) =
      after (errs.map .type) (visitNumber lib n t) := by
  rw [visitConst, typeFor_basic false q hid hkw hn ho]
  rfl

theorem visit_string (lib : Lib) (n : Str) {id : Str} (q : Bool) {numbers : List Str}
    (hid : IsIdText id) (hkw : id.map toLower ∉ typeKeywords)
    (hn : ∀ x ∈ numbers, IsNumberText x) {t : PbType} {errs : List TypeErr}
    (ho : basicOut false id q numbers = some (t, errs)) :
    visitConst lib false none (.string n (some (.basic id q numbers))) =
      after (errs.map .type) (typedString lib n t) := by
  rw [visitConst, typeFor_basic false q hid hkw hn ho]
  rfl

theorem nullValue_nullable (q : Bool) : decide (nullValue q = .nullable) = q := by
  cases q <;> rfl

/-- A number with a simple type. -/
theorem read_number_plain (lib : Lib) (n : Str) (hn : IsNumberText n) {id : Str}
    {ts : List Token} (hname : Name id ts) (hid : IsIdText id)
    (hkw : id.map toLower ∉ typeKeywords) {k : Scalar} (hk : simpleType id = some k) (q : Bool) :
    readLiteral lib (n ++ '_' :: id ++ questionText q) =
      some (visitNumber lib n (.scalar k (nullValue q))) := by
  unfold readLiteral
  rw [parse_number_plain n hn hname q, Option.map_some,
    visit_number lib n q hid hkw (by simp) (t := .scalar k (nullValue q)) (errs := [])
      (by simp [basicOut, hk])]
  exact congrArg some (after_nil _)

/-- A string with a simple type. -/
theorem read_string_plain (lib : Lib) (s : Str) (hs : '\\' ∉ s) {id : Str}
    {ts : List Token} (hname : Name id ts) (hid : IsIdText id)
    (hkw : id.map toLower ∉ typeKeywords) {k : Scalar} (hk : simpleType id = some k) (q : Bool) :
    readLiteral lib (quotedText s ++ '_' :: id ++ questionText q) =
      some (typedString lib (quotedText s) (.scalar k (nullValue q))) := by
  unfold readLiteral
  rw [parse_string_plain s hs hname q, Option.map_some,
    visit_string lib _ q hid hkw (by simp) (t := .scalar k (nullValue q)) (errs := [])
      (by simp [basicOut, hk])]
  exact congrArg some (after_nil _)

theorem visitString_quoted (s : Str) (h : '\\' ∉ s) (t : PbType) :
    visitString (quotedText s) t = .ok (stringLiteral s t) := by
  unfold visitString
  rw [show quotedText s = StrLit.quoted s from rfl, StrLit.string_roundtrip_partial s h]
  rfl

theorem plainString_quoted (s : Str) (h : '\\' ∉ s) :
    plainString (quotedText s) = .ok (s, []) := by
  unfold plainString
  rw [show quotedText s = StrLit.quoted s from rfl, StrLit.string_roundtrip_partial s h]
  rfl

/-! ## Numbers -/

theorem read_i8 (lib : Lib) (v : Int) (h : Int32 v) (q : Bool) :
    readLiteral lib (intText v ++ "_i8".toList ++ questionText q) =
      some (.ok (.atom (.i8 v) q, [])) := by
  have := read_number_plain lib (intText v) (isNumberText_intText v) name_i8 (by decide)
    (by decide) (k := .i8) (by decide) q
  refine this.trans ?_
  simp [visitNumber, stoi32_intText h, orNumberError, nullValue_nullable]

theorem read_i16 (lib : Lib) (v : Int) (h : Int32 v) (q : Bool) :
    readLiteral lib (intText v ++ "_i16".toList ++ questionText q) =
      some (.ok (.atom (.i16 v) q, [])) := by
  have := read_number_plain lib (intText v) (isNumberText_intText v) name_i16 (by decide)
    (by decide) (k := .i16) (by decide) q
  refine this.trans ?_
  simp [visitNumber, stoi32_intText h, orNumberError, nullValue_nullable]

theorem read_i32 (lib : Lib) (v : Int) (h : Int32 v) (q : Bool) :
    readLiteral lib (intText v ++ "_i32".toList ++ questionText q) =
      some (.ok (.atom (.i32 v) q, [])) := by
  have := read_number_plain lib (intText v) (isNumberText_intText v) name_i32 (by decide)
    (by decide) (k := .i32) (by decide) q
  refine this.trans ?_
  simp [visitNumber, stoi32_intText h, orNumberError, nullValue_nullable]

theorem stol64_intText {v : Int} (h : Int64 v) : stol64 (intText v) = .ok v := by
  unfold stol64
  obtain ⟨h1, h2⟩ := h
  have := stoBound_intText (b := 9223372036854775807) (i := v) (t := []) (by omega) (by omega)
    (by simp)
  simpa using this

theorem read_i64 (lib : Lib) (v : Int) (h : Int64 v) (q : Bool) :
    readLiteral lib (intText v ++ "_i64".toList ++ questionText q) =
      some (.ok (.atom (.i64 v) q, [])) := by
  have := read_number_plain lib (intText v) (isNumberText_intText v) name_i64 (by decide)
    (by decide) (k := .i64) (by decide) q
  refine this.trans ?_
  simp [visitNumber, stol64_intText h, orNumberError, nullValue_nullable]

theorem read_fp32 (lib : Lib) (n : Str) (h : IsNumberText n) (q : Bool) :
    readLiteral lib (n ++ "_fp32".toList ++ questionText q) =
      some (orNumberError (fun v => .atom (.fp32 v) q) (lib.read32 n)) := by
  have := read_number_plain lib n h name_fp32 (by decide) (by decide) (k := .fp32) (by decide) q
  refine this.trans ?_
  simp [visitNumber, nullValue_nullable]

theorem read_fp64 (lib : Lib) (n : Str) (h : IsNumberText n) (q : Bool) :
    readLiteral lib (n ++ "_fp64".toList ++ questionText q) =
      some (orNumberError (fun v => .atom (.fp64 v) q) (lib.read64 n)) := by
  have := read_number_plain lib n h name_fp64 (by decide) (by decide) (k := .fp64) (by decide) q
  refine this.trans ?_
  simp [visitNumber, nullValue_nullable]

/-- Numbers that are not finite are syntax errors. -/
theorem read_notFinite (lib : Lib) (n : Str) (h : n ∈ notFinite) (q : Bool) (ty : Str)
    (hty : ty = "_fp32".toList ∨ ty = "_fp64".toList) :
    readLiteral lib (n ++ ty ++ questionText q) = none := by
  have key : ∀ n ∈ notFinite, ∀ ty ∈ ["_fp32".toList, "_fp64".toList], ∀ q ∈ [false, true],
      (parseLiteral (n ++ ty ++ questionText q)).isNone = true := by decide +kernel
  have := key n h ty (by simpa using hty) q (by cases q <;> simp)
  unfold readLiteral
  rw [Option.isNone_iff_eq_none.mp this]
  rfl

/-! ## Texts -/

theorem read_string (lib : Lib) (s : Str) (h : '\\' ∉ s) (q : Bool) :
    readLiteral lib (quotedText s ++ "_string".toList ++ questionText q) =
      some (.ok (.atom (.string s) false, [])) := by
  refine (read_string_plain lib s h name_string (by decide) (by decide) (k := .string)
    (by decide) q).trans ?_
  simp only [typedString]
  rw [visitString_quoted s h]
  rfl

theorem stringEscape_id (s : Str) (h : '"' ∉ s) : StrLit.stringEscape s = s := by
  induction s with
  | nil => rfl
  | cons c cs ih =>
    have hc : ¬ c = '"' := fun e => h (by simp [e])
    unfold StrLit.stringEscape
    rw [if_neg hc, ih (fun hm => h (by simp [hm]))]

/-! ## Dates -/

theorem dateText_chars (z : Int) : '"' ∉ Date.dateText z ∧ '\\' ∉ Date.dateText z := by
  have hp : ∀ w n, ∀ c ∈ Date.padded w n, isDigit c = true := Date.padded_digits
  have hd : ∀ c, isDigit c = true → c ≠ '"' ∧ c ≠ '\\' := by
    intro c hc
    constructor <;> (rintro rfl; exact absurd hc (by decide))
  have hy : ∀ y, ∀ c ∈ Date.yearText y, c ≠ '"' ∧ c ≠ '\\' := by
    intro y c hc
    unfold Date.yearText at hc
    split at hc
    · simp only [List.mem_cons] at hc
      rcases hc with rfl | hc
      · decide
      · exact hd c (hp _ _ c hc)
    · exact hd c (hp _ _ c hc)
  have ht : ∀ t : Date.Ymd, ∀ c ∈ Date.ymdText t, c ≠ '"' ∧ c ≠ '\\' := by
    intro t c hc
    unfold Date.ymdText at hc
    simp only [List.mem_append, List.mem_cons] at hc
    rcases hc with ((hc | rfl | hc) | rfl | hc) | hc
    · exact hy _ c hc
    · decide
    · exact hd c (hp _ _ c hc)
    · decide
    · exact hd c (hp _ _ c hc)
    · split at hc
      · simp at hc
      · have : ∀ c ∈ " is not a valid date".toList, c ≠ '"' ∧ c ≠ '\\' := by decide
        exact this c hc
  exact ⟨fun h => (ht _ _ h).1 rfl, fun h => (ht _ _ h).2 rfl⟩

theorem quotedText_date (z : Int) : quotedText (Date.dateText z) = '"' :: Date.dateText z ++ ['"'] := by
  unfold quotedText
  rw [stringEscape_id _ (dateText_chars z).1]

theorem read_date (lib : Lib) (z : Int) (q : Bool) :
    readLiteral lib ('"' :: Date.dateText z ++ "\"_date".toList ++ questionText q) =
      some (.ok (match Date.parseDate (Date.dateText z) with
        | some v => (.atom (.date v) false, [])
        | none => (empty, [.date]))) := by
  have ht : '"' :: Date.dateText z ++ "\"_date".toList ++ questionText q =
      quotedText (Date.dateText z) ++ '_' :: "date".toList ++ questionText q := by
    rw [quotedText_date]
    show _ ++ '"' :: '_' :: "date".toList ++ _ = _
    simp
  rw [ht, read_string_plain lib _ (dateText_chars z).2 name_date (by decide) (by decide)
    (k := .date) (by decide) q]
  simp only [typedString, visitDate]
  rw [plainString_quoted _ (dateText_chars z).2]
  simp only [Outcome.bind]
  cases Date.parseDate (Date.dateText z) <;> rfl

/-! ## Intervals -/

/-- A part of an interval: the number, the name of the unit and its tokens. -/
abbrev Part := Int × Str × List Token

def partText (x : Part) : Str := intText x.1 ++ '_' :: x.2.1
def partToks (x : Part) : List Token := ⟨.number, intText x.1⟩ :: uTok :: x.2.2
def partTree (x : Part) : ConstTree := .number (intText x.1) (some (.basic x.2.1 false []))

def moreText : List Part → Str
  | [] => []
  | x :: xs => ',' :: ' ' :: partText x ++ moreText xs

def moreToks : List Part → List Token
  | [] => []
  | x :: xs => ⟨.comma, [',']⟩ :: partToks x ++ moreToks xs

theorem lexes_part (x : Part) (h : Name x.2.1 x.2.2) : Lexes (partText x) (partToks x) NameEnd := by
  have := lexes_typed_number (intText x.1) (isNumberText_intText _) h false [] (by simp)
  simpa [partText, partToks, TypeTree.text, questionText, basicToks, questionToks, specToks]
    using this

theorem lexes_more : ∀ (xs : List Part), (∀ x ∈ xs, Name x.2.1 x.2.2) →
    Lexes (moreText xs) (moreToks xs) NameEnd
  | [], _ => Lexes.nil _
  | x :: xs, h => by
    have h1 := Lexes.append (lexes_part x (h x (by simp)))
      (lexes_more xs (fun y hy => h y (by simp [hy]))) (fun rest hr => by
        cases xs with
        | nil => exact hr
        | cons y ys => exact nameEnd_cons _ _ (by decide))
    have h2 : Lexes [','] [⟨.comma, [',']⟩] (fun _ => True) :=
      lexes_sign ',' .comma (by simp [signs]) rfl _
    have h3 := lexes_blank ' ' (.inl rfl) (fun _ => True)
    have h4 := Lexes.append h2 (Lexes.append h3 h1 (fun _ _ => trivial)) (fun _ _ => trivial)
    simpa [moreText, moreToks] using h4

theorem parseConst_part (f : Nat) (x : Part) (h : Name x.2.1 x.2.2) (rest : List Token)
    (hr : TyEnd rest) : parseConst (f + 1) (partToks x ++ rest) = some (partTree x, rest) := by
  have := parseConst_number f (intText x.1) h false [] rest (fun _ => hr)
  simpa [partToks, partTree, basicToks, questionToks, specToks] using this

theorem tyEnd_cons (t : Token) (ts : List Token) (h1 : t.kind ≠ .underscore)
    (h2 : t.kind ≠ .question) (h3 : t.kind ≠ .leftAngle) : TyEnd (t :: ts) := by
  refine ⟨?_, ?_, ?_⟩ <;> simp [nextIs, h1, h2, h3]

theorem tyEnd_more (xs : List Part) (rest : List Token) (h : TyEnd rest) :
    TyEnd (moreToks xs ++ rest) := by
  cases xs with
  | nil => exact h
  | cons x xs => exact tyEnd_cons _ _ (by simp) (by simp) (by simp)

theorem parseMore_parts : ∀ (xs : List Part) (F : Nat) (rest : List Token),
    (∀ x ∈ xs, Name x.2.1 x.2.2) → xs.length + 1 ≤ F → TyEnd rest → nextIs .comma rest = false →
    parseMoreConsts F (moreToks xs ++ rest) = some (xs.map partTree, rest)
  | [], F, rest, _, hF, _, hc => by
    obtain ⟨f, rfl⟩ : ∃ f, F = f + 1 := ⟨F - 1, by simp at hF; omega⟩
    simp [moreToks, parseMoreConsts, hc]
  | x :: xs, F, rest, h, hF, hr, hc => by
    obtain ⟨f, rfl⟩ : ∃ f, F = f + 1 + 1 := ⟨F - 2, by simp at hF; omega⟩
    have h1 := parseConst_part f x (h x (by simp)) (moreToks xs ++ rest) (tyEnd_more xs rest hr)
    have h2 := parseMore_parts xs (f + 1) rest (fun y hy => h y (by simp [hy]))
      (by simp at hF; omega) hr hc
    simp only [moreToks, List.cons_append, List.append_assoc, List.map_cons]
    rw [parseMoreConsts]
    simp only [nextIs, decide_true, if_true, List.tail_cons, h1, Option.bind_some, h2,
      Option.map_some]

/-- An interval. -/
def intervalText (x : Part) (xs : List Part) (name : Str) : Str :=
  '{' :: (partText x ++ (moreText xs ++ '}' :: '_' :: name))

def intervalToks (x : Part) (xs : List Part) (ts : List Token) (q : Bool) : List Token :=
  ⟨.leftBrace, ['{']⟩ :: (partToks x ++ (moreToks xs ++ (⟨.rightBrace, ['}']⟩ :: uTok ::
    basicToks ts q [])))

theorem lexes_interval (x : Part) (xs : List Part) (h : ∀ y ∈ x :: xs, Name y.2.1 y.2.2)
    {name : Str} {ts : List Token} (hn : Name name ts) (q : Bool) :
    Lexes (intervalText x xs name ++ questionText q) (intervalToks x xs ts q) NameEnd := by
  have h1 := Lexes.append (lexes_underscore (fun _ => True)) (lexes_basic hn q [] (by simp))
    (fun _ _ => trivial)
  have h2 : Lexes ['}'] [⟨.rightBrace, ['}']⟩] (fun _ => True) :=
    lexes_sign '}' .rightBrace (by simp [signs]) rfl _
  have h3 : Lexes ['{'] [⟨.leftBrace, ['{']⟩] (fun _ => True) :=
    lexes_sign '{' .leftBrace (by simp [signs]) rfl _
  have h4 := Lexes.append (lexes_more xs (fun y hy => h y (by simp [hy])))
    (Lexes.append h2 h1 (fun _ _ => trivial)) (fun _ _ => nameEnd_cons _ _ (by decide))
  have h5 := Lexes.append (lexes_part x (h x (by simp))) h4 (fun rest hr => by
    cases xs with
    | nil => exact nameEnd_cons _ _ (by decide)
    | cons y ys => exact nameEnd_cons _ _ (by decide))
  have h6 := Lexes.append h3 h5 (fun _ _ => trivial)
  simpa [intervalText, intervalToks, TypeTree.text] using h6

theorem parseConst_interval (F : Nat) (x : Part) (xs : List Part)
    (h : ∀ y ∈ x :: xs, Name y.2.1 y.2.2) {name : Str} {ts : List Token} (hn : Name name ts)
    (q : Bool) (rest : List Token) (hr : TyEnd rest) (hF : xs.length + 2 ≤ F) :
    parseConst F (intervalToks x xs ts q ++ rest) =
      some (.structLit (partTree x :: xs.map partTree) (some (.basic name q [])), rest) := by
  obtain ⟨f, rfl⟩ : ∃ f, F = f + 1 + 1 := ⟨F - 2, by omega⟩
  have h1 := parseConst_part f x (h x (by simp))
    (moreToks xs ++ (⟨.rightBrace, ['}']⟩ :: uTok :: (basicToks ts q [] ++ rest)))
    (tyEnd_more xs _ (tyEnd_cons _ _ (by simp) (by simp) (by simp)))
  have h2 := parseMore_parts xs (f + 1)
    (⟨.rightBrace, ['}']⟩ :: uTok :: (basicToks ts q [] ++ rest))
    (fun y hy => h y (by simp [hy])) (by omega)
    (tyEnd_cons _ _ (by simp) (by simp) (by simp)) (by simp [nextIs])
  have h3 : parseSuffixType (f + 1) (uTok :: (basicToks ts q [] ++ rest)) =
      some (some (.basic name q []), rest) := by
    unfold parseSuffixType
    rw [if_pos (by simp [nextIs, uTok])]
    have := parseType_toks hn q [] rest (fun _ => hr) f
    simp [this]
  have hb : nextIs .rightBrace (partToks x ++ (moreToks xs ++ (⟨.rightBrace, ['}']⟩ :: uTok ::
      (basicToks ts q [] ++ rest)))) = false := by simp [partToks, nextIs]
  have hc : nextIs .colon (moreToks xs ++ (⟨.rightBrace, ['}']⟩ :: uTok ::
      (basicToks ts q [] ++ rest))) = false := by cases xs <;> simp [moreToks, nextIs]
  have he : intervalToks x xs ts q ++ rest = ⟨.leftBrace, ['{']⟩ :: (partToks x ++ (moreToks xs ++
      (⟨.rightBrace, ['}']⟩ :: uTok :: (basicToks ts q [] ++ rest)))) := by
    simp [intervalToks]
  rw [he, parseConst]
  simp only [hb, Bool.false_eq_true, if_false, h1, Option.bind_some, hc, h2, expect, if_true, h3,
    Option.map_some]

theorem parse_interval (x : Part) (xs : List Part) (h : ∀ y ∈ x :: xs, Name y.2.1 y.2.2)
    {name : Str} {ts : List Token} (hn : Name name ts) (q : Bool) :
    parseLiteral (intervalText x xs name ++ questionText q) =
      some (.structLit (partTree x :: xs.map partTree) (some (.basic name q []))) := by
  have hl := lexes_interval x xs h hn q [';'] nameEnd_semicolon
  rw [lex_semicolon] at hl
  have hlen : ∀ xs : List Part, xs.length ≤ (moreToks xs).length := by
    intro xs
    induction xs with
    | nil => simp
    | cons y ys ih => simp [moreToks]; omega
  have hp := parseConst_interval (4 * (intervalToks x xs ts q ++ [(⟨.semicolon, [';']⟩ : Token)]).length + 2)
    x xs h hn q _ tyEnd_semicolon (by
      have := hlen xs
      simp [intervalToks]; omega)
  have := parseLiteral_of (q := false) hl (t := ⟨.leftBrace, ['{']⟩) (.inr (.inr rfl)) hp
  simpa using this

theorem visitEach_parts (lib : Lib) : ∀ (xs : List Part), (∀ x ∈ xs, Int32 x.1) →
    collect (visitEach lib true ((i32Types xs.length).map some) (xs.map partTree)) =
      .ok (xs.map fun x => .atom (.i32 x.1) false, [])
  | [], _ => rfl
  | x :: xs, h => by
    have ih := visitEach_parts lib xs (fun y hy => h y (by simp [hy]))
    have h1 : visitConst lib true (some (.scalar .i32 .unspecified)) (partTree x) =
        .ok (.atom (.i32 x.1) false, []) := by
      rw [partTree, visitConst]
      simp [typeFor, visitNumber, stoi32_intText (h x (by simp)), orNumberError, after,
        Outcome.map, Outcome.bind]
    simp only [List.length_cons, i32Types, List.replicate_succ, List.map_cons, visitEach, collect]
      at ih ⊢
    rw [h1, ih]
    rfl

theorem read_intervalYear (lib : Lib) (y m : Int) (hy : Int32 y) (hm : Int32 m) (q : Bool) :
    readLiteral lib ('{' :: intText y ++ "_years, ".toList ++ intText m ++
        "_months}_interval_year".toList ++ questionText q) =
      some (.ok (.atom (.intervalYear y m) false, [])) := by
  let x : Part := (y, "years".toList, [idTok "years"])
  let z : Part := (m, "months".toList, [idTok "months"])
  have ht : '{' :: intText y ++ "_years, ".toList ++ intText m ++
        "_months}_interval_year".toList ++ questionText q =
      intervalText x [z] "interval_year".toList ++ questionText q := by
    simp [intervalText, partText, moreText, x, z]
  have hp := parse_interval x [z] (by
    intro w hw; simp at hw; rcases hw with rfl | rfl
    · exact name_years
    · exact name_months) name_intervalYear q
  unfold readLiteral
  rw [ht, hp, Option.map_some, visitConst, typeFor_basic true q (by decide) (by decide) (by simp)
    (t := .scalar .intervalYear (nullValue q)) (errs := []) (by
      simp only [basicOut]
      rw [show simpleType "interval_year".toList = some .intervalYear by decide])]
  have hv := visitEach_parts lib [x, z] (by
    intro w hw; simp at hw; rcases hw with rfl | rfl <;> assumption)
  simp only [List.length_cons, List.length_nil, List.map_cons, List.map_nil] at hv
  simp only [Outcome.bind, structOf, List.length_cons, List.length_nil, List.map_cons,
    List.map_nil]
  rw [hv]
  rfl

theorem read_intervalDay (lib : Lib) (d s u : Int) (hd : Int32 d) (hs : Int32 s) (hu : Int32 u)
    (q : Bool) :
    readLiteral lib ('{' :: intText d ++ "_days, ".toList ++ intText s ++ "_seconds, ".toList ++
        intText u ++ "_microseconds}_interval_day".toList ++ questionText q) =
      some (.ok (.atom (.intervalDay d s u) false, [])) := by
  let x : Part := (d, "days".toList, [idTok "days"])
  let y : Part := (s, "seconds".toList, [idTok "seconds"])
  let z : Part := (u, "microseconds".toList, [idTok "microseconds"])
  have ht : '{' :: intText d ++ "_days, ".toList ++ intText s ++ "_seconds, ".toList ++
        intText u ++ "_microseconds}_interval_day".toList ++ questionText q =
      intervalText x [y, z] "interval_day".toList ++ questionText q := by
    simp [intervalText, partText, moreText, x, y, z]
  have hp := parse_interval x [y, z] (by
    intro w hw; simp at hw; rcases hw with rfl | rfl | rfl
    · exact name_days
    · exact name_seconds
    · exact name_microseconds) name_intervalDay q
  unfold readLiteral
  rw [ht, hp, Option.map_some, visitConst, typeFor_basic true q (by decide) (by decide) (by simp)
    (t := .scalar .intervalDay (nullValue q)) (errs := []) (by
      simp only [basicOut]
      rw [show simpleType "interval_day".toList = some .intervalDay by decide])]
  have hv := visitEach_parts lib [x, y, z] (by
    intro w hw; simp at hw; rcases hw with rfl | rfl | rfl <;> assumption)
  simp only [List.length_cons, List.length_nil, List.map_cons, List.map_nil] at hv
  simp only [Outcome.bind, structOf, List.length_cons, List.length_nil, List.map_cons,
    List.map_nil]
  rw [hv]
  rfl

/-! ## Types with parameters -/

theorem isNumberText_natText (n : Nat) : IsNumberText (natText n) :=
  numberText_of_digits (isDigits_natText n)

theorem read_fixedChar (lib : Lib) (s : Str) (h : '\\' ∉ s) (q : Bool) :
    readLiteral lib (quotedText s ++ "_fixedchar<".toList ++ natText s.length ++ ['>'] ++
        questionText q) =
      if q then none
      else some (.ok (.atom (.fixedChar s) false,
        if s.length ≤ 2147483647 then [] else [.type .fixedCharLength])) := by
  have ht : quotedText s ++ "_fixedchar<".toList ++ natText s.length ++ ['>'] ++ questionText q =
      quotedText s ++ '_' :: (TypeTree.basic "fixedchar".toList false [natText s.length]).text ++
        questionText q := by
    simp [TypeTree.text, commaText, questionText]
  have hn : ∀ x ∈ [natText s.length], IsNumberText x := by
    intro x hx; simp at hx; subst hx; exact isNumberText_natText _
  unfold readLiteral
  rw [ht, parse_string_params s h name_fixedchar _ (by simp) hn q]
  cases q
  · simp only [Bool.false_eq_true, if_false, Option.map_some]
    have ho : basicOut false "fixedchar".toList false [natText s.length] =
        some (if s.length ≤ 2147483647 then (.fixedChar s.length .required, [])
          else (.fixedChar 0 .required, [.fixedCharLength])) := by
      simp only [basicOut]
      rw [if_pos (by decide), stoi32_digits (isDigits_natText _), digitsVal_natText]
      by_cases hl : s.length ≤ 2147483647
      · rw [if_pos hl, if_pos hl]; rfl
      · rw [if_neg hl, if_neg hl]; rfl
    split
    · rename_i hl
      rw [if_pos hl] at ho
      rw [visit_string lib _ false (by decide) (by decide) hn ho]
      simp only [typedString, visitString_quoted s h]
      rfl
    · rename_i hl
      rw [if_neg hl] at ho
      rw [visit_string lib _ false (by decide) (by decide) hn ho]
      simp only [typedString, visitString_quoted s h]
      rfl
  · rfl

theorem read_varChar (lib : Lib) (s : Str) (h : '\\' ∉ s) (l : Nat) (q : Bool) :
    readLiteral lib (quotedText s ++ "_varchar<".toList ++ intText l ++ ['>'] ++
        questionText q) =
      if q then none
      else some (.ok (if l ≤ 2147483647 then (.atom (.varChar s l) false, [])
        else (.atom (.varChar s 0) false, [.type .varcharLength]))) := by
  have ht : quotedText s ++ "_varchar<".toList ++ intText l ++ ['>'] ++ questionText q =
      quotedText s ++ '_' :: (TypeTree.basic "varchar".toList false [natText l]).text ++
        questionText q := by
    simp [TypeTree.text, commaText, questionText]
    rfl
  have hn : ∀ x ∈ [natText l], IsNumberText x := by
    intro x hx; simp at hx; subst hx; exact isNumberText_natText _
  unfold readLiteral
  rw [ht, parse_string_params s h name_varchar _ (by simp) hn q]
  cases q
  · simp only [Bool.false_eq_true, if_false, Option.map_some]
    have ho : basicOut false "varchar".toList false [natText l] =
        some (if l ≤ 2147483647 then (.varchar l .required, [])
          else (.varchar 0 .required, [.varcharLength])) := by
      simp only [basicOut]
      have hi : NumberUtils.isInteger (natText l) = true := isInteger_intText (l : Int)
      rw [if_neg (by decide), if_pos (by decide), if_pos hi,
        stoi32_digits (isDigits_natText _), digitsVal_natText]
      by_cases hl : l ≤ 2147483647
      · rw [if_pos hl, if_pos hl]; rfl
      · rw [if_neg hl, if_neg hl]; rfl
    split
    · rename_i hl
      rw [if_pos hl] at ho
      rw [visit_string lib _ false (by decide) (by decide) hn ho]
      simp only [typedString, visitString_quoted s h]
      rfl
    · rename_i hl
      rw [if_neg hl] at ho
      rw [visit_string lib _ false (by decide) (by decide) hn ho]
      simp only [typedString, visitString_quoted s h]
      rfl
  · rfl

/-- The text of a decimal is a numeral with an optional minus sign. -/
theorem toBaseString_form (d : Decimal.Literal) :
    ∃ n : Nat, n < 2 ^ 128 ∧ (d.toBaseString = natText n ∨ d.toBaseString = '-' :: natText n) := by
  unfold Decimal.Literal.toBaseString
  split
  · exact ⟨0, by decide, .inl rfl⟩
  · simp only
    rw [Decimal.digitsBack_eq _ _ (Nat.le_refl _)]
    rename_i last _
    refine ⟨Decimal.accumulate (if last &&& 0x80 ≠ 0 then Decimal.negate d.value else d.value),
      ?_, ?_⟩
    · rw [Decimal.accumulate_eq]; exact Nat.mod_lt _ (by decide)
    · by_cases h : last &&& 0x80 ≠ 0
      · right; rw [if_pos h]; rfl
      · left; rw [if_neg h]; rfl

theorem isNumberText_negative (n : Nat) : IsNumberText ('-' :: natText n) :=
  ⟨['-'], natText n, [], [], by simp, .inr rfl, isDigits_natText _, .inl rfl, .inl rfl⟩

theorem read_decimal (lib : Lib) (d : Decimal.Proto) (hp : Int32 d.precision) (hs : Int32 d.scale)
    (q : Bool) :
    readLiteral lib ((Decimal.fromProto d).toBaseString ++ "_decimal<".toList ++
        intText d.precision ++ ',' :: intText d.scale ++ ['>'] ++ questionText q) =
      if q then none
      else some (visitNumber lib (Decimal.fromProto d).toBaseString
        (.decimal d.precision d.scale .required)) := by
  generalize hb : (Decimal.fromProto d).toBaseString = b
  have hnb : IsNumberText b := by
    obtain ⟨n, _, h | h⟩ := toBaseString_form (Decimal.fromProto d)
    · rw [← hb, h]; exact isNumberText_natText n
    · rw [← hb, h]; exact isNumberText_negative n
  have ht : b ++ "_decimal<".toList ++ intText d.precision ++ ',' :: intText d.scale ++ ['>'] ++
        questionText q =
      b ++ '_' :: (TypeTree.basic "decimal".toList false
        [intText d.precision, intText d.scale]).text ++ questionText q := by
    simp [TypeTree.text, commaText, questionText]
  have hn : ∀ x ∈ [intText d.precision, intText d.scale], IsNumberText x := by
    intro x hx; simp at hx; rcases hx with rfl | rfl <;> exact isNumberText_intText _
  unfold readLiteral
  rw [ht, parse_number_params b hnb name_decimal _ (by simp) hn q]
  cases q
  · simp only [Bool.false_eq_true, if_false, Option.map_some]
    have ho : basicOut false "decimal".toList false [intText d.precision, intText d.scale] =
        some (.decimal d.precision d.scale .required, []) := by
      simp only [basicOut]
      rw [if_neg (by decide), if_neg (by decide), if_neg (by decide), if_pos (by decide),
        stoi32_intText hp, stoi32_intText hs]
      rfl
    rw [visit_number lib _ false (by decide) (by decide) hn ho]
    exact congrArg some (after_nil _)
  · rfl

end Verif.Literal
