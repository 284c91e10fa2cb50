import Verif.Lemmas.TypeSplit

/-!
# Properties of type decoding (C01 - C04)
-/

namespace Verif.Ty

open Verif StringUtils

/-- **C01, exact behaviour.**  For every concrete type the syntax can spell, decoding its
text returns that type, unless some nullable list, map or struct contains a nullable part;
then decoding throws. -/
theorem decode_text (t : CType) (h : t.spellable = true) :
    decode false t.text =
      if t.noNullInNull = true then .ok t.obj else .throw .unsupported :=
  decode_text_aux t h

/-- **C01, the part of the property that holds** (`_partial`: the full property has no
`noNullInNull` hypothesis; it is false, see `decode_text_full_fails`). -/
theorem decode_text_partial (t : CType) (h : t.spellable = true) (hn : t.noNullInNull = true) :
    decode false t.text = .ok t.obj := by
  rw [decode_text t h, if_pos hn]

/-- **C01, the failing set is exactly the nullable-in-nullable types.** -/
theorem decode_text_iff (t : CType) (h : t.spellable = true) :
    decode false t.text = .ok t.obj ↔ t.noNullInNull = true := by
  rw [decode_text t h]; split <;> simp_all

/-- **C01 as stated is false**: a nullable list of nullable integers, `list?<i32?>`, is
rejected. -/
theorem decode_text_full_fails :
    ¬ ∀ t : CType, t.spellable = true → decode false t.text = .ok t.obj := by
  intro h
  have h1 := h (.list (.scalar .i32 true) true) rfl
  rw [decode_text_iff _ rfl] at h1
  exact absurd h1 (by decide)

/-- Non-vacuity of C01: a deep nested type meets the hypotheses, with its text. -/
example : (CType.struct [.scalar .timestampTz true,
      .map (.varchar 12 false) (.list (.decimal 38 2 true) false) false] false).spellable = true ∧
    (CType.struct [.scalar .timestampTz true,
      .map (.varchar 12 false) (.list (.decimal 38 2 true) false) false] false).noNullInNull = true ∧
    (CType.struct [.scalar .timestampTz true,
      .map (.varchar 12 false) (.list (.decimal 38 2 true) false) false] false).text =
      "struct<timestamp_tz?,map<varchar<12>,list<decimal?<38,2>>>>".toList := by
  decide +kernel

/-! ## C02: case and blanks -/

/-- **C02, blanks.**  Decoding depends only on the text without leading and trailing
white space. -/
theorem decode_trim (p : Bool) (s : Str) : decode p (trim s) = decode p s := by
  rw [decode_eq, decode_eq, trim_idem]

/-- **C02, blanks, by padding.**  White space put before and after the text does not matter. -/
theorem decode_padded (p : Bool) (a b s : Str) (ha : ∀ c ∈ a, isSpace c = true)
    (hb : ∀ c ∈ b, isSpace c = true) : decode p (a ++ s ++ b) = decode p s := by
  rw [← decode_trim p (a ++ s ++ b), ← decode_trim p s]
  congr 1
  rw [trim_eq, trim_eq]
  have h1 : ∀ (x y : Str), (∀ c ∈ x, isSpace c = true) →
      (x ++ y).dropWhile isSpace = y.dropWhile isSpace := by
    intro x y hx
    induction x with
    | nil => rfl
    | cons c cs ih =>
      simp only [List.cons_append, List.dropWhile_cons, hx c (by simp), if_true]
      exact ih (fun d hd => hx d (by simp [hd]))
  rw [List.append_assoc, h1 a _ ha, List.dropWhile_append]
  split
  · rename_i h
    have e : List.dropWhile isSpace s = [] := by simpa using h
    rw [e]
    have : b.dropWhile isSpace = [] := by simpa using h1 b [] hb
    rw [this]
  · rw [List.reverse_append, h1 b.reverse _ (by simpa using hb)]

/-- **C02, letter case.**  Two texts that differ only in the case of letters decode to the
same outcome, up to the case of the symbolic parameter names in it. -/
theorem decode_caseInsensitive (p : Bool) (s s' : Str) (h : s.map toLower = s'.map toLower) :
    (decode p s).map PType.fold = (decode p s').map PType.fold := by
  rw [← decode_lower p (s.length + 1) s (by omega), h,
    decode_lower p (s'.length + 1) s' (by omega)]

/-- **C02, letter case, concrete types.**  If a text decodes to a concrete type, then every
text that differs only in the case of letters decodes to the same concrete type. -/
theorem decode_caseInsensitive_concrete (p : Bool) (s s' : Str) (t : CType)
    (h : s.map toLower = s'.map toLower) (hs : decode p s = .ok t.obj) :
    decode p s' = .ok t.obj := by
  have := decode_caseInsensitive p s s' h
  rw [hs, Outcome.map_ok, fold_obj] at this
  cases hd : decode p s' with
  | ok u => rw [hd] at this; simp at this; rw [eq_obj_of_fold t u this.symm]
  | throw e => rw [hd] at this; simp at this
  | ub => rw [hd] at this; simp at this

/-- Non-vacuity of C02: upper-case, padded text of a nested type. -/
example : decode false "  MAP<String , Decimal?<9, 2>>\n".toList =
      .ok (CType.map (.scalar .string false) (.decimal 9 2 true) false).obj ∧
    "MAP<String>".toList.map toLower = "map<sTRING>".toList.map toLower := by
  constructor
  · rfl
  · decide

/-! ## C03: no undefined behaviour -/

/-- **C03, parameterised mode** (the mode of `decode(rawType)`, of extension files and of
the text plan parser): decoding any text returns or throws, with no undefined behaviour. -/
theorem decode_param_total_partial (s : Str) : decode true s ≠ .ub :=
  decode_param_ne_ub (s.length + 1) s (by omega)

/-- **C03 as stated is false** in concrete mode: `map<i32>` reads past the end of the
parameter vector, and `varchar<i32>`, `decimal<i32,2>` dereference a null pointer. -/
theorem decode_concrete_ub :
    decode false "map<i32>".toList = .ub ∧ decode false "varchar<i32>".toList = .ub ∧
      decode false "decimal<i32,2>".toList = .ub :=
  ⟨rfl, rfl, rfl⟩

/-- **C03, usable results, is false** in both modes: `list<abc>` decodes in concrete mode to
a list whose element pointer is null, so matching it is undefined behaviour, and
`varchar<i32>` decodes in parameterised mode to an object whose signature is undefined
behaviour. -/
theorem decode_null_component :
    decode false "list<abc>".toList = .ok (.list .null false) ∧
      isMatch (.list .null false) (.list (.scalar .i32 false) false) = .ub ∧
      decode true "varchar<i32>".toList = .ok (.pVarchar .null false) ∧
      signature (.pVarchar .null false) = .ub := by
  refine ⟨by rfl, by rfl, by rfl, by rfl⟩

/-- The texts and parameter lists on which one level of concrete decoding is undefined. -/
def BadParams (base : Str) (ps : List PType) : Prop :=
  (base = "list".toList ∧ ps = []) ∨
  (base = "map".toList ∧ ps.length < 2) ∨
  (base = "decimal".toList ∧ ∃ p0 p1, ps = [p0, p1] ∧
    (castLit p0 = .null ∨ (∃ v w q, p0 = .lit v w q ∧ NumberUtils.isNonNegativeInteger v = true) ∧
      castLit p1 = .null)) ∨
  ((base = "varchar".toList ∨ base = "fixedchar".toList ∨ base = "fixedbinary".toList) ∧
    (ps = [] ∨ ∃ p0 rest, ps = p0 :: rest ∧ castLit p0 = .null))

theorem decodeLength_ub_iff (pcls : PType → Bool → PType) (cls : Int → Bool → PType) (n : Bool)
    (ps : List PType) : decodeLength pcls cls false n ps = .ub ↔
      (ps = [] ∨ ∃ p0 rest, ps = p0 :: rest ∧ castLit p0 = .null) := by
  cases ps with
  | nil => simp [decodeLength]
  | cons p0 rest =>
    simp only [decodeLength, Bool.false_eq_true, if_false]
    rcases castLit_cases p0 with h | ⟨v, w, q, h⟩
    · simp [h]
    · rw [h]
      simp only
      have : ∀ b : Bool, ((if b = true then (stoi v).bind fun l => Outcome.ok (cls l n)
          else Outcome.throw Exc.fail) ≠ .ub) := by
        intro b; cases b
        · simp
        · simp only [if_true, stoi]; split <;> simp
      simp [this, h]

theorem decodeDecimal_ub_iff (n : Bool) (ps : List PType) :
    decodeDecimal false n ps = .ub ↔ ∃ p0 p1, ps = [p0, p1] ∧
    (castLit p0 = .null ∨ (∃ v w q, p0 = .lit v w q ∧ NumberUtils.isNonNegativeInteger v = true) ∧
      castLit p1 = .null) := by
  match ps with
  | [] => simp [decodeDecimal]
  | [_] => simp [decodeDecimal]
  | _ :: _ :: _ :: _ => simp [decodeDecimal]
  | [p0, p1] =>
    simp only [decodeDecimal, Bool.false_eq_true, if_false]
    have hlit : ∀ (t : PType) v w q, castLit t = .lit v w q ↔ t = .lit v w q := by
      intro t v w q; cases t <;> simp [castLit]
    rcases castLit_cases p0 with h | ⟨v, w, q, h⟩
    · rw [h]
      simp only [true_iff]
      exact ⟨p0, p1, rfl, Or.inl h⟩
    · have e0 := (hlit p0 v w q).mp h
      subst e0
      rw [h]
      simp only
      by_cases hv : NumberUtils.isNonNegativeInteger v = true
      · simp only [hv, if_true]
        rcases castLit_cases p1 with h1 | ⟨v1, w1, q1, h1⟩
        · rw [h1]
          simp only [true_iff]
          exact ⟨_, _, rfl, Or.inr ⟨⟨v, w, q, rfl, hv⟩, h1⟩⟩
        · have e1 := (hlit p1 v1 w1 q1).mp h1
          subst e1
          rw [h1]
          simp only
          constructor
          · intro hh
            exfalso
            revert hh
            split
            · simp only [stoi]; split <;> simp; split <;> simp
            · simp
          · rintro ⟨a, b, e, hor⟩
            simp at e
            obtain ⟨rfl, rfl⟩ := e
            simp [castLit] at hor
      · simp only [hv]
        constructor
        · intro hh; simp at hh
        · rintro ⟨a, b, e, hor⟩
          simp at e
          obtain ⟨rfl, rfl⟩ := e
          rcases hor with hor | ⟨⟨v', w', q', e, hv'⟩, _⟩
          · simp [castLit] at hor
          · simp at e; obtain ⟨rfl, _⟩ := e; exact absurd hv' hv

/-- **C03, exact boundary of undefined behaviour in concrete mode, one level.** -/
theorem decodeByName_concrete_ub_iff (base : Str) (n : Bool) (ps : List PType) :
    decodeByName base false n ps = .ub ↔ BadParams base ps := by
  unfold decodeByName BadParams
  by_cases h1 : base = "list".toList
  · subst h1; cases ps <;> simp [decodeList]
  by_cases h2 : base = "map".toList
  · subst h2
    match ps with
    | [] => simp [decodeMap]
    | [_] => simp [decodeMap]
    | _ :: _ :: _ => simp [decodeMap]
  by_cases h3 : base = "struct".toList
  · subst h3; simp [decodeStruct]
  by_cases h4 : base = "decimal".toList
  · subst h4
    simp only [h1, h2, h3, if_false, if_true, decodeDecimal_ub_iff, false_and, true_and, false_or]
    simp
  by_cases h5 : base = "varchar".toList
  · subst h5
    simp only [h1, h2, h3, h4, if_false, if_true, decodeLength_ub_iff, false_and, true_and,
      false_or, true_or]
  by_cases h6 : base = "fixedchar".toList
  · subst h6
    simp only [h1, h2, h3, h4, h5, if_false, if_true, decodeLength_ub_iff, false_and, true_and,
      false_or, true_or]
  by_cases h7 : base = "fixedbinary".toList
  · subst h7
    simp only [h1, h2, h3, h4, h5, h6, if_false, if_true, decodeLength_ub_iff, false_and,
      true_and, false_or]
  simp only [h1, h2, h3, h4, h5, h6, h7, if_false, false_and, or_self]
  simp

/-! ## C04: parameters are split at the top-level commas -/

/-- **C04, the specification determines the pieces**: every text has a top-level split. -/
theorem topSplit_exists (body : Str) : ∃ ws, IsTopSplit body ws :=
  exists_topSplit body.length body (Nat.le_refl _)

/-- **C04, the specification determines the pieces**: there is only one. -/
theorem topSplit_unique (body : Str) (ws ws' : List Str) (h : IsTopSplit body ws)
    (h' : IsTopSplit body ws') : ws = ws' := by
  have e := tokens_split h.ne h.noComma h.balanced []
  have e' := tokens_split h'.ne h'.noComma h'.balanced []
  rw [h.join] at e
  rw [h'.join] at e'
  exact e.symm.trans e'

/-- **C04.**  Text `pre<body>` is decoded by decoding exactly the pieces of `body` between
its top-level commas, in order, and building the type from the results. -/
theorem decode_splits (p : Bool) (pre body : Str) (ws : List Str) (hpre : '<' ∉ pre)
    (htrim : trim (pre ++ '<' :: body ++ ['>']) = pre ++ '<' :: body ++ ['>'])
    (h : IsTopSplit body ws) :
    decode p (pre ++ '<' :: body ++ ['>']) =
      (Outcome.mapM (decode p) ws).bind fun ps =>
        decodeByName (bracketHead (pre ++ '<' :: body ++ ['>']) pre.length).1 p
          (bracketHead (pre ++ '<' :: body ++ ['>']) pre.length).2 ps := by
  have hfirst : findFirst '<' (pre ++ '<' :: body ++ ['>']) = some pre.length := by
    rw [List.append_assoc, List.cons_append]; exact findFirst_append hpre
  have hlast : findLast '>' (pre ++ '<' :: body ++ ['>']) =
      some ((pre ++ ['<']).length + (commas ws).length) := by
    rw [findLast_append (by simp), h.join]; simp; omega
  have htok : tokens (pre ++ '<' :: body ++ ['>'])
      (some ((pre ++ ['<']).length + (commas ws).length)) (pre.length + 1) = ws := by
    have := tokens_split h.ne h.noComma h.balanced (pre ++ ['<'])
    rw [h.join] at this ⊢
    simpa using this
  rw [decode_eq, htrim, hfirst]
  simp only
  rw [hlast, htok]

/-- Non-vacuity of C04: three pieces, one with nested brackets and commas. -/
example : IsTopSplit "i32,map<i8,list<i8>>,string".toList
    ["i32".toList, "map<i8,list<i8>>".toList, "string".toList] := by
  obtain ⟨ws, h⟩ := topSplit_exists "i32,map<i8,list<i8>>,string".toList
  have e := tokens_split h.ne h.noComma h.balanced []
  rw [h.join] at e
  have e2 : tokens ("i32,map<i8,list<i8>>,string".toList ++ ['>'])
      (some "i32,map<i8,list<i8>>,string".toList.length) 0 =
      ["i32".toList, "map<i8,list<i8>>".toList, "string".toList] := by decide +kernel
  simp only [List.nil_append, List.length_nil, Nat.zero_add] at e
  rw [e2] at e
  rw [e]; exact h

end Verif.Ty
