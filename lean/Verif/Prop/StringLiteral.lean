import Verif.Lemmas.StringLiteral
import Verif.Lemmas.Lexer

/-!
# Properties of string literals (C33, C34, C46, C51)
-/

namespace Verif.StrLit

open Verif

/-! ## C34: escapes -/

/-- **C34, termination and safety.**  On every text the loop ends and returns, with no
access out of range and no exception. -/
theorem escapeText_total (s : Str) : ∃ v e, escapeText s = .ok (v, e) := by
  by_cases h : s = ['\\', 'u']
  · subst h; exact ⟨_, _, escapeText_u⟩
  · exact ⟨_, _, escapeText_eq s h⟩

/-- **C34, well-formed text.**  A text made of plain characters and well-formed escapes gives
the bytes its pieces stand for, and no error. -/
theorem escapeText_pieces (t v : Str) (h : Pieces t v) : escapeText t = .ok (v, []) := by
  have hne : t ≠ ['\\', 'u'] := by
    rintro rfl
    generalize ht : ['\\', 'u'] = t at h
    cases h with
    | nil => simp at ht
    | cons t v ts vs hp _ =>
      cases hp <;> simp at ht
      case plain c hc => exact hc ht.1.symm
  rw [escapeText_eq t hne]
  have := scan_pieces t v [] 0 h
  simp only [List.append_nil] at this
  rw [this, scan_nil]
  simp

/-- **C34, unknown escapes.**  After well-formed text, a backslash with a letter that is not
an escape letter is kept and reported at its position; the text before it is not
affected. -/
theorem escapeText_unknown (t v : Str) (c : Char) (s : Str) (h : Pieces t v)
    (hc : c ∉ escapeLetters) :
    ∃ w e, escapeText (t ++ '\\' :: c :: s) = .ok (v ++ '\\' :: c :: w, t.length :: e) := by
  have hne : t ++ '\\' :: c :: s ≠ ['\\', 'u'] := by
    intro h0
    cases t with
    | nil => simp at h0; exact hc (by rw [h0.1]; decide)
    | cons a t =>
      have := congrArg List.length h0
      simp at this
      omega
  rw [escapeText_eq _ hne, scan_pieces t v _ 0 h]
  have hu : unit ('\\' :: c :: s) = (['\\', c], true, 2) := by
    simp only [escapeLetters, List.mem_cons, List.not_mem_nil, or_false, not_or] at hc
    obtain ⟨h1, h2, h3, h4, h5, h6, h7, h8, h9, h10⟩ := hc
    simp [unit, simpleEscape, h1, h2, h3, h4, h5, h6, h7, h8, h9, h10]
  simp only [List.length_cons]
  rw [scan_cons _ _ _ (by simp), hu]
  exact ⟨_, _, by simp; exact ⟨rfl, rfl⟩⟩

/-- Non-vacuity: a text with every kind of piece, and an unknown escape after it. -/
example : Pieces "a\\n\\\"\\x4f\\u{2}\\u{23b}".toList
    (['a', '\n', '"', 'O', Char.ofNat 2, Char.ofNat 2, Char.ofNat 59]) ∧ 'q' ∉ escapeLetters := by
  refine ⟨?_, by decide⟩
  have n1 : HexNumeral ['4', 'f'] 79 :=
    .snoc ['4'] 'f' 4 15 (.snoc [] '4' 0 4 .nil (by decide +kernel)) (by decide +kernel)
  have n2 : HexNumeral ['2'] 2 := .snoc [] '2' 0 2 .nil (by decide +kernel)
  have n3 : HexNumeral ['2', '3', 'b'] (256 * 2 + 59) :=
    .snoc ['2', '3'] 'b' 35 11 (.snoc ['2'] '3' 2 3 n2 (by decide +kernel)) (by decide +kernel)
  exact .cons ['a'] ['a'] _ _ (.plain 'a' (by decide)) <|
    .cons ['\\', 'n'] _ _ _ .newline <| .cons ['\\', '"'] _ _ _ .doubleQuote <|
    .cons ['\\', 'x', '4', 'f'] [Char.ofNat 79] _ _ (.byte _ _ _ n1) <|
    .cons ['\\', 'u', '{', '2', '}'] [Char.ofNat 2] _ _ (.one ['2'] 2 n2 (by decide) (by decide)) <|
    .cons ['\\', 'u', '{', '2', '3', 'b', '}'] [Char.ofNat 2, Char.ofNat 59] _ _
      (.two ['2', '3', 'b'] 2 59 n3 (by decide) (by decide) (by decide) (by decide)) .nil

/-- **C34 as stated is false**: these malformed escapes are not reported.  `\xZZ` is kept,
`\u41` and a lone `\u` are dropped, `\u{41` without closing brace loses its first three
characters, seven digits in braces give nothing, a final backslash is kept. -/
theorem escapeText_silent :
    escapeText "\\xZZ".toList = .ok ("\\xZZ".toList, []) ∧
    escapeText "\\u41".toList = .ok ("41".toList, []) ∧
    escapeText "\\u".toList = .ok ([], []) ∧
    escapeText "\\u{41".toList = .ok ("41".toList, []) ∧
    escapeText "a\\u{1234567}b".toList = .ok ("ab".toList, []) ∧
    escapeText "a\\".toList = .ok ("a\\".toList, []) := by
  decide +kernel

/-- **C34 as stated is false**: signs and blanks are taken for hexadecimal digits. -/
theorem escapeText_signs :
    escapeText "\\x-1".toList = .ok ([Char.ofNat 255], []) ∧
    escapeText "\\x 7".toList = .ok ([Char.ofNat 7], []) ∧
    escapeText "\\u{0x41}".toList = .ok ([Char.ofNat 0, Char.ofNat 65], []) := by
  decide +kernel

/-- **C34 as stated is false**: a unicode escape above 127 does not give the UTF-8 form of
the character, although plans are UTF-8 throughout (README.md:102-104). -/
theorem escapeText_not_utf8 :
    escapeText "\\u{e9}".toList = .ok ([Char.ofNat 0xe9], []) ∧
    escapeText "\\u{e9}".toList ≠ .ok (utf8Two 0xe9, []) := by
  decide +kernel

/-! ## C33: printing and reading -/

/-- The text the printer writes for a string value. -/
def quoted (v : Str) : Str := '"' :: stringEscape v ++ ['"']

theorem stringEscape_body : ∀ v : Str, StringBody (stringEscape v)
  | [] => .nil
  | c :: cs => by
    unfold stringEscape
    split
    · rename_i h; subst h; exact .escaped _ (stringEscape_body cs)
    · rename_i h; exact .char _ _ h (stringEscape_body cs)

theorem stringRule_quoted (v rest : Str) (h : '\\' ∉ v) :
    Lex.stringRule (quoted v ++ rest) = some (.string, (quoted v).length) := by
  rw [Lex.stringRule_iff]
  refine ⟨⟨quoted v, rest, ⟨_, stringEscape_body v, rfl⟩, rfl, rfl⟩, ?_⟩
  rintro t r ⟨b, hb, rfl⟩ hs
  have hs' : stringEscape v ++ '"' :: rest = b ++ '"' :: r := by
    simpa [quoted] using hs
  suffices hlen : ∀ (v b : Str), '\\' ∉ v → StringBody b →
      stringEscape v ++ '"' :: rest = b ++ '"' :: r → b.length ≤ (stringEscape v).length by
    have := hlen v b h hb hs'
    simp [quoted]; omega
  intro v
  induction v with
  | nil =>
    intro b _ hb he
    cases hb with
    | nil => simp
    | char c b hc _ => simp [stringEscape] at he; exact absurd he.1.symm hc
    | escaped b _ => simp [stringEscape] at he
  | cons c cs ih =>
    intro b hv hb he
    have hcs : '\\' ∉ cs := fun hm => hv (by simp [hm])
    by_cases hc : c = '"'
    · subst hc
      simp only [stringEscape, if_true, List.cons_append] at he ⊢
      cases hb with
      | nil => simp at he
      | char d b hd hb =>
        simp only [List.cons_append, List.cons.injEq] at he
        cases hb with
        | nil => simp
        | char d' b hd' _ => simp at he; exact absurd he.2.1.symm hd'
        | escaped b _ => simp at he
      | escaped b hb =>
        simp only [List.cons_append, List.cons.injEq, true_and] at he
        have := ih b hcs hb he
        simp; omega
    · simp only [stringEscape, hc, if_false, List.cons_append] at he ⊢
      cases hb with
      | nil => simp at he; exact absurd he.1 hc
      | char d b hd hb =>
        simp only [List.cons_append, List.cons.injEq] at he
        have := ih b hcs hb he.2
        simp; omega
      | escaped b _ =>
        simp only [List.cons_append, List.cons.injEq] at he
        exact absurd (by simp [he.1]) hv

/-- **C33, one token** (`_partial`: only values without a backslash; the full property is
false, see `string_roundtrip_fails`).  Whatever follows it, the lexer takes exactly the
printed text as one STRING token. -/
theorem quoted_token_partial (v rest : Str) (h : '\\' ∉ v) :
    Lex.lexDefault (quoted v ++ rest) = some (.string, (quoted v).length) := by
  have := stringRule_quoted v rest h
  rw [← this]
  exact Lex.lexDefault_quote _

theorem startsWith_quote (s needle : Str) (h : needle.head? = some '`') :
    StringManipulation.startsWith ('"' :: s) needle = false := by
  unfold StringManipulation.startsWith
  cases needle with
  | nil => simp at h
  | cons c n =>
    simp at h
    subst h
    simp

theorem unquote_quoted (s : Str) : unquote ('"' :: s ++ ['"']) = .ok s := by
  unfold unquote
  rw [List.cons_append, startsWith_quote _ _ rfl, startsWith_quote _ _ rfl]
  simp only [Bool.false_eq_true, if_false, charAt, List.getElem?_cons_zero, Outcome.bind_ok,
    true_or, if_true]
  simp [substr, subSize]

theorem stringText_quoted (s : Str) : stringText ('"' :: s ++ ['"']) = escapeText s := by
  unfold stringText
  rw [unquote_quoted, List.cons_append, startsWith_quote _ _ rfl]
  rfl

/-- **C33, same value** (`_partial`: only values without a backslash).  Reading the printed
token gives the value back and reports no error. -/
theorem string_roundtrip_partial (v : Str) (h : '\\' ∉ v) :
    stringText (quoted v) = .ok (v, []) := by
  rw [quoted, stringText_quoted]
  exact escapeText_pieces _ _ (pieces_stringEscape v h)

/-- Non-vacuity of C33: a value with quotes, line ends and a byte above 127. -/
example : '\\' ∉ ['a', '"', '\n', Char.ofNat 200, '`'] ∧
    quoted ['a', '"', 'b'] = "\"a\\\"b\"".toList := by decide

/-- **C33 as stated is false**: backslashes are printed bare.  The two characters `\n` come
back as a line feed, `C:\temp` comes back with a tab, `\q` is reported as an error, and a
value that ends in a backslash does not even end its token: the printed text is extended
to the next quote in the plan. -/
theorem string_roundtrip_fails :
    stringText (quoted "\\n".toList) = .ok (['\n'], []) ∧
    stringText (quoted "C:\\temp".toList) = .ok (['C', ':', '\t', 'e', 'm', 'p'], []) ∧
    stringText (quoted "\\q".toList) = .ok ("\\q".toList, [0]) ∧
    Lex.lexDefault (quoted "a\\".toList ++ "_string, \"b\"_string".toList) =
      some (.string, (quoted "a\\".toList ++ "_string, \"".toList).length) := by
  decide +kernel

/-! ## C46: UUIDs -/

/-- `s` consists of 32 hexadecimal digits. -/
def IsUuidDigits (s : Str) : Prop := s.length = 32 ∧ ∀ c ∈ s, ∃ d, IsHex c d

theorem isHexDigit_iff (c : Char) : isHexDigit c = true ↔ ∃ d, IsHex c d := by
  constructor
  · intro h
    unfold isHexDigit at h
    obtain ⟨n, hn⟩ := Option.isSome_iff_exists.mp h
    refine ⟨n, ?_⟩
    have key : ∀ m : Fin 128, ∀ k, hexDigit (Char.ofNat m.val) = some k →
        (Char.ofNat m.val, k) ∈ hexTable := by
      intro m
      have h1 : ∀ m : Fin 128, hexDigit (Char.ofNat m.val) = none ∨
          ∃ e ∈ hexTable, e.1 = Char.ofNat m.val ∧ hexDigit (Char.ofNat m.val) = some e.2 := by
        decide +kernel
      intro k hk
      rcases h1 m with h1 | ⟨e, he, h2, h3⟩
      · simp [h1] at hk
      · rw [h3] at hk
        simp at hk
        rw [← h2, ← hk]
        exact he
    have hlt : c.toNat < 128 := by
      unfold hexDigit at hn
      split at hn
      · omega
      · split at hn
        · omega
        · split at hn
          · omega
          · simp at hn
    have := key ⟨c.toNat, hlt⟩ n
    simp only [Char.ofNat_toNat] at this
    exact this hn
  · rintro ⟨d, hd⟩
    simp [isHexDigit, hexDigit_of_isHex c d hd]

/-- **C46, acceptance** (`_partial`: the second half of the property, the bytes, is false,
see `uuid_bytes_fail`).  A uuid text is accepted exactly if it consists of 32 hexadecimal
digits and any number of dashes anywhere; the value is the text without the dashes. -/
theorem uuid_accept_partial (s : Str) :
    ((uuidValue s).2 = none ↔ IsUuidDigits (s.filter (· ≠ '-'))) ∧
      ((uuidValue s).2 = none → (uuidValue s).1 = s.filter (· ≠ '-')) := by
  unfold uuidValue IsUuidDigits
  simp only
  by_cases h : (s.filter (· ≠ '-')).any (fun c => !isHexDigit c) = true
  · rw [if_pos h]
    simp only [reduceCtorEq, false_iff, not_and, false_implies, and_true]
    intro _ hall
    obtain ⟨c, hc, h1⟩ := List.any_eq_true.mp h
    have := (isHexDigit_iff c).mpr (hall c hc)
    simp [this] at h1
  · rw [if_neg h]
    have hall : ∀ c ∈ s.filter (· ≠ '-'), ∃ d, IsHex c d := by
      intro c hc
      rw [← isHexDigit_iff]
      cases hh : isHexDigit c with
      | true => rfl
      | false => exact absurd (List.any_eq_true.mpr ⟨c, hc, by simp [hh]⟩) h
    split
    · rename_i hl
      refine ⟨?_, ?_⟩
      · simp only [reduceCtorEq, false_iff, not_and]
        intro h32; exact absurd h32 hl
      · intro h; simp at h
    · rename_i hl
      have hl : (s.filter (· ≠ '-')).length = 32 := by simpa using hl
      exact ⟨⟨fun _ => ⟨hl, hall⟩, fun _ => rfl⟩, fun _ => rfl⟩

/-- Non-vacuity of C46. -/
example : (uuidValue "ddb287e8-7d4c-4fad-b2e7-07428be043e5".toList).2 = none ∧
    (uuidValue "ddb287e8-7d4c-4fad-b2e7-07428be043e".toList).2 = some .length ∧
    (uuidValue "hello".toList).2 = some .notHex := by decide +kernel

/-- **C46 as stated is false**: every accepted uuid literal holds 32 characters, never the
16 bytes they denote. -/
theorem uuid_bytes_fail (s : Str) (h : (uuidValue s).2 = none) : (uuidValue s).1.length ≠ 16 := by
  have h1 := (uuid_accept_partial s).1.mp h
  rw [(uuid_accept_partial s).2 h, h1.1]
  decide

/-! ## C51: raw strings -/

/-- **C51, one and two backticks** (`_partial`: the content must not begin with a backtick;
see `raw_string_fails`).  A raw string stands for exactly the characters between the
backticks; backslashes are not special. -/
theorem raw_string_partial (v : Str) (hne : v ≠ []) (h : v.head? ≠ some '`') :
    stringText ("`".toList ++ v ++ "`".toList) = .ok (v, []) ∧
      stringText ("``".toList ++ v ++ "``".toList) = .ok (v, []) := by
  cases v with
  | nil => exact absurd rfl hne
  | cons c v =>
    have hc : c ≠ '`' := by simpa using h
    have hc' : ¬ ('`' = c) := fun h => hc h.symm
    constructor
    · simp [stringText, unquote, StringManipulation.startsWith, charAt, substr, subSize, hc]
    · simp [stringText, unquote, StringManipulation.startsWith, substr, subSize, hc]

/-- **C51, three backticks.**  The content is kept as it is. -/
theorem raw_string_three (v : Str) (hne : v ≠ []) :
    stringText ("```".toList ++ v ++ "```".toList) = .ok (v, []) := by
  cases v with
  | nil => exact absurd rfl hne
  | cons c v =>
    simp [stringText, unquote, StringManipulation.startsWith, substr, subSize]

/-- **C51 as stated is false**: a raw string in two backticks whose content begins with a
backtick is one token, but it is read as if it had three backticks. -/
theorem raw_string_fails :
    Lex.lexDefault "```ab``".toList = some (.string, 7) ∧
      stringText ("``".toList ++ "`ab".toList ++ "``".toList) = .ok ("a".toList, []) := by
  decide +kernel

/-- **C51, the lexer rules.**  What a rule for raw strings matches: the shortest text with at
least one character between two groups of backticks; in single backticks, without a
backtick. -/
theorem raw_token (ticks : Str) (one : Bool) (s : Str) (n : Nat) :
    Lex.rawRule ticks one s = some (.string, n) ↔
      ∃ b r, b ≠ [] ∧ (one = true → '`' ∉ b) ∧ s = ticks ++ b ++ ticks ++ r ∧
        n = ticks.length + b.length + ticks.length ∧
        ∀ b' r', b' ≠ [] → s = ticks ++ b' ++ ticks ++ r' → b.length ≤ b'.length :=
  Lex.rawRule_iff ticks one s n

/-- **C51, the token.**  Text in single backticks is one token, whatever follows. -/
theorem raw_token_one (v rest : Str) (hne : v ≠ []) (h : '`' ∉ v) :
    Lex.lexDefault ("`".toList ++ v ++ "`".toList ++ rest) =
      some (.string, v.length + 2) := by
  have h1 : Lex.rawRule "`".toList true ("`".toList ++ v ++ "`".toList ++ rest) =
      some (.string, v.length + 2) := by
    rw [Lex.rawRule_iff]
    refine ⟨v, rest, hne, fun _ => h, rfl, by simp; omega, ?_⟩
    intro b' r' _ hs
    simp only [List.append_assoc, List.append_cancel_left_eq] at hs
    by_cases hl : v.length ≤ b'.length
    · exact hl
    · exfalso
      have h2 : (v ++ ("`".toList ++ rest))[b'.length]? = some '`' := by
        rw [hs]; simp
      rw [List.getElem?_append_left (by omega)] at h2
      exact h (List.mem_of_getElem? h2)
  cases v with
  | nil => exact absurd rfl hne
  | cons c v =>
    have hc : ('`' == c) = false := by simp at h; simp; exact h.1
    have h2 : ∀ k, Lex.rawRule ('`' :: '`' :: k) false
        ("`".toList ++ (c :: v) ++ "`".toList ++ rest) = none := by
      intro k
      simp [Lex.rawRule, List.isPrefixOf, hc]
    have e : "`".toList ++ (c :: v) ++ "`".toList ++ rest =
      '`' :: ((c :: v) ++ "`".toList ++ rest) := rfl
    rw [e] at h1 h2 ⊢
    rw [Lex.lexDefault_tick, h1, show "``".toList = ['`', '`'] from rfl, h2,
      show "```".toList = ['`', '`', '`'] from rfl, h2]
    rfl

/-- Non-vacuity of C51. -/
example : stringText "`C:\\temp`".toList = .ok ("C:\\temp".toList, []) ∧
    stringText "``a`b``".toList = .ok ("a`b".toList, []) ∧
    Lex.lexDefault "``a`b``".toList = some (.string, 7) := by decide +kernel

end Verif.StrLit
