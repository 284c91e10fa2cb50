import Verif.Lemmas.TypeProto

/-!
# Types in text plans (C37, C48)
-/

namespace Verif.TyPb

open Verif Verif.Ty Verif.Tree

/-! ## C48: reading type text -/

/-- **C48, nothing is thrown.**  Whatever type the grammar lets through, reading it returns a
message and a list of errors: no exception escapes and no null pointer is read. -/
theorem typeText_total (inside : Bool) (t : TypeTree) (h : WellFormed t) :
    ∃ r, textToTypeProto inside t.text = .ok r :=
  ⟨_, res_text (res_tree inside t h)⟩

/-- **C48, exact behaviour on types.**  A text that stands for a type without fixed binary
parts is read as that type, with its nullability and parameters and without an error, unless
a nullable list, map or struct has a nullable part; then the text is refused. -/
theorem typeText_reads (inside : Bool) (t : TypeTree) (c : CType) (h : WellFormed t)
    (hm : meaning t = some c) (hf : noFixedBinary c = true) :
    textToTypeProto inside t.text =
      .ok (if c.noNullInNull = true then (pbOf c, []) else (.notSet, [.cannotDecode])) := by
  rw [res_text (res_tree inside t h), out_some inside t c h hm, pbRead_eq c hf]
  split <;> rfl

/-- **C48, the part of the property that holds for types** (`_partial`: the full property has
neither the `noFixedBinary` nor the `noNullInNull` hypothesis; see `typeText_full_fails` and
`typeText_fixedBinary_fails`). -/
theorem typeText_reads_partial (inside : Bool) (t : TypeTree) (c : CType) (h : WellFormed t)
    (hm : meaning t = some c) (hf : noFixedBinary c = true) (hn : c.noNullInNull = true) :
    textToTypeProto inside t.text = .ok (pbOf c, []) := by
  rw [typeText_reads inside t c h hm hf, if_pos hn]

/-- **C48, the part of the property that holds for other text** (`_partial`: the full property
has no `PlainNumbers` hypothesis; see `typeText_rejects_fails`).  A text that stands for no
type is reported as an error. -/
theorem typeText_rejects_partial (t : TypeTree) (h : WellFormed t) (hp : PlainNumbers t)
    (hm : meaning t = none) :
    ∃ r, textToTypeProto false t.text = .ok r ∧ r.2 ≠ [] := by
  have hf := out_none t h hp hm
  refine ⟨_, res_text (res_tree false t h), ?_⟩
  cases ho : out false t with
  | none => simp
  | some r => exact hf r ho

/-- **C48 as stated is false for types**: `list?<i32?>` is refused. -/
theorem typeText_full_fails :
    ¬ ∀ (t : TypeTree) (c : CType), WellFormed t → meaning t = some c →
      noFixedBinary c = true → textToTypeProto false t.text = .ok (pbOf c, []) := by
  intro h
  have hw : WellFormed (.list "list".toList true (.basic "i32".toList true [])) := by
    simp only [WellFormed]
    exact ⟨by decide, ⟨by decide, by decide⟩, by decide, by simp⟩
  have h1 := h _ (.list (.scalar .i32 true) true) hw rfl rfl
  rw [typeText_reads false _ _ hw rfl rfl] at h1
  cases h1

/-- **C48 as stated is false for fixed binary types**: the length of `fixedbinary<16>` is
lost. -/
theorem typeText_fixedBinary_fails :
    textToTypeProto false "fixedbinary<16>".toList = .ok (.fixedBinary 0 .required, []) ∧
    pbOf (.fixedBinary 16 false) = .fixedBinary 16 .required := ⟨rfl, rfl⟩

/-- The text of the witnesses below is in the grammar. -/
theorem wellFormed_lengths : WellFormed (.basic "fixedchar".toList false ["1.5".toList]) ∧
    WellFormed (.basic "varchar".toList false ["5".toList, "6".toList]) ∧
    WellFormed (.basic "decimal".toList false ["-3".toList, "2".toList]) := by
  simp only [WellFormed]
  have hd : ∀ s : Str, IsDigits s → IsNumberText s := fun s => numberText_of_digits
  refine ⟨⟨⟨by decide, by decide⟩, by decide, ?_⟩, ⟨⟨by decide, by decide⟩, by decide, ?_⟩,
    ⟨⟨by decide, by decide⟩, by decide, ?_⟩⟩
  · intro x hx; simp at hx; subst hx
    exact ⟨[], ['1'], ['.', '5'], [], rfl, .inl rfl, by decide, .inr ⟨['5'], rfl, by decide⟩, .inl rfl⟩
  · intro x hx; simp at hx; rcases hx with rfl | rfl <;> exact hd _ (by decide)
  · intro x hx; simp at hx
    rcases hx with rfl | rfl
    · exact ⟨['-'], ['3'], [], [], rfl, .inr rfl, by decide, .inl rfl, .inl rfl⟩
    · exact hd _ (by decide)

/-- **C48 as stated is false for other text**: `fixedchar<1.5>`, `varchar<5,6>` and
`decimal<-3,2>` stand for no type and are read without an error. -/
theorem typeText_rejects_fails :
    (meaning (.basic "fixedchar".toList false ["1.5".toList]) = none ∧
      textToTypeProto false "fixedchar<1.5>".toList = .ok (.fixedChar 1 .required, [])) ∧
    (meaning (.basic "varchar".toList false ["5".toList, "6".toList]) = none ∧
      textToTypeProto false "varchar<5,6>".toList = .ok (.varchar 5 .required, [])) ∧
    (meaning (.basic "decimal".toList false ["-3".toList, "2".toList]) = none ∧
      textToTypeProto false "decimal<-3,2>".toList = .ok (.decimal (-3) 2 .required, [])) := by
  refine ⟨⟨by rfl, by rfl⟩, ⟨by rfl, by rfl⟩, ⟨by rfl, by rfl⟩⟩

/-- Inside a struct literal an unknown type is accepted as an empty message without an
error; this is how the reader treats types it cannot name. -/
theorem typeText_inside_unknown (id : Str) (q : Bool) (h : IsIdText id)
    (hk : id.map toLower ∉ typeKeywords) (hs : simpleType id = none) :
    textToTypeProto true (id ++ questionText q) = .ok (.notSet, []) ∧
    textToTypeProto false (id ++ questionText q) = .ok (.notSet, [.unrecognized]) := by
  have h1 := res_text (res_basic true q (numbers := []) h hk (by simp))
  have h2 := res_text (res_basic false q (numbers := []) h hk (by simp))
  simp only [TypeTree.text, List.isEmpty_nil, if_true, List.append_nil] at h1 h2
  exact ⟨by rw [h1]; simp [basicOut, hs], by rw [h2]; simp [basicOut, hs]⟩

/-- Text outside the grammar can make the reader follow a null pointer: a length that is the
name of a type.  The grammar only lets numbers through (`typeText_total`). -/
theorem typeText_outside_grammar : textToTypeProto false "fixedchar<i32>".toList = .ub := rfl

/-- Non-vacuity: a nested type with upper case letters meets the hypotheses of
`typeText_reads_partial`. -/
example :
    let t : TypeTree := .map "MAP".toList true (.basic "VarChar".toList false ["007".toList]) true
      (.struct "struct".toList false [.basic "Bool".toList false [],
        .basic "decimal".toList false ["38".toList, "2".toList]])
    WellFormed t ∧ meaning t = some (.map (.varchar 7 false)
      (.struct [.scalar .bool false, .decimal 38 2 false] false) true) ∧
    t.text = "MAP?<VarChar<007>,struct<Bool,decimal<38,2>>>".toList := by
  refine ⟨?_, rfl, by decide +kernel⟩
  simp only [WellFormed, AllWellFormed]
  have hd : ∀ s : Str, IsDigits s → IsNumberText s := fun s => numberText_of_digits
  refine ⟨by decide, ⟨⟨by decide, by decide⟩, by decide, ?_⟩, by decide, by simp,
    ⟨⟨by decide, by decide⟩, by decide, by simp⟩, ⟨⟨by decide, by decide⟩, by decide, ?_⟩, trivial⟩
  · intro x hx; simp at hx; subst hx; exact hd _ (by decide)
  · intro x hx; simp at hx; rcases hx with rfl | rfl <;> exact hd _ (by decide)

/-- Non-vacuity: `struct<,any1>` meets the hypotheses of `typeText_rejects_partial`. -/
example :
    let t : TypeTree := .struct "struct".toList false [.absent, .basic "any1".toList false []]
    WellFormed t ∧ PlainNumbers t ∧ meaning t = none ∧
    textToTypeProto false t.text =
      .ok (.struct [.notSet, .notSet] .required, [.unrecognized, .unrecognized]) := by
  refine ⟨?_, ?_, rfl, rfl⟩
  · simp only [WellFormed, AllWellFormed]
    exact ⟨by decide, by simp, trivial, ⟨⟨by decide, by decide⟩, by decide, by simp⟩, trivial⟩
  · simp only [PlainNumbers, AllPlainNumbers]
    exact ⟨trivial, ⟨by simp, by decide, by decide⟩, trivial⟩

/-! ## C37: printed types -/

/-- **C37, unsupported types are reported.**  The printer reports an error exactly for the
kinds of type it does not print. -/
theorem printType_errors (t : PbType) : (printType t).2 = [] ↔ printable t = true := by
  cases t with
  | scalar k n => cases k <;> cases n <;> decide
  | decimal _ _ _ => exact ⟨fun _ => rfl, fun _ => rfl⟩
  | varchar _ _ => exact ⟨fun _ => rfl, fun _ => rfl⟩
  | fixedChar _ _ => exact ⟨fun _ => rfl, fun _ => rfl⟩
  | _ => exact ⟨fun h => (nomatch h), fun h => (nomatch h)⟩

/-- **C37, exact behaviour.**  The text printed for a supported type is read back without an
error as the same type; a nullability that was not specified becomes `required`. -/
theorem printType_reread (inside : Bool) (t : PbType) (h : printable t = true)
    (hp : paramsFit t) :
    textToTypeProto inside (printType t).1 =
      .ok (withNullability (nullabilityOf (decide (nullability t = .nullable))) t, []) := by
  have hb : ∀ n : Nullability, nullMark n = questionText (decide (n = .nullable)) := by
    intro n; cases n <;> rfl
  have hstoi : ∀ i, Int32 i → stoi32 (intText i) = .ok i := by
    exact fun i hi => stoi32_intText hi
  cases t with
  | scalar k n =>
    have hs : ∃ name, printName k = some name ∧ IsIdText name ∧
        name.map toLower ∉ typeKeywords ∧ simpleType name = some k := by
      simp only [printable] at h
      cases k <;> first
        | exact absurd h (by decide)
        | exact ⟨_, rfl, ⟨by decide, by decide⟩, by decide, by decide⟩
    obtain ⟨name, hn, hid, hk, hst⟩ := hs
    have hr := res_text (res_basic inside (decide (n = .nullable)) (numbers := []) hid hk (by simp))
    simp only [TypeTree.text, List.isEmpty_nil, if_true, List.append_nil] at hr
    rw [show printType (.scalar k n) = (name ++ nullMark n, []) by
      show printScalar k n = _; unfold printScalar; rw [hn]]
    simp only [hb, hr, basicOut, hst]
    rfl
  | decimal p s n =>
    have hr := res_text (res_basic inside (decide (n = .nullable))
      (numbers := [intText p, intText s]) (id := "decimal".toList) ⟨by decide, by decide⟩ (by decide)
      (by intro x hx; simp at hx; rcases hx with rfl | rfl <;> exact isNumberText_intText _))
    have ht : (printType (.decimal p s n)).1 =
        (TypeTree.basic "decimal".toList (decide (n = .nullable)) [intText p, intText s]).text := by
      rw [printType_decimal]
      simp [TypeTree.text, hb, commaText]
    rw [ht, hr]
    have hlow : "decimal".toList.map toLower = "decimal".toList := by decide
    unfold basicOut
    simp only [hlow, hstoi p hp.1, hstoi s hp.2]
    rfl
  | varchar l n =>
    have hr := res_text (res_basic inside (decide (n = .nullable))
      (numbers := [intText l]) (id := "varchar".toList) ⟨by decide, by decide⟩ (by decide)
      (by intro x hx; simp at hx; subst hx; exact isNumberText_intText _))
    have ht : (printType (.varchar l n)).1 =
        (TypeTree.basic "varchar".toList (decide (n = .nullable)) [intText l]).text := by
      rw [printType_varchar]
      simp [TypeTree.text, hb, commaText]
    rw [ht, hr]
    have hlow : "varchar".toList.map toLower = "varchar".toList := by decide
    unfold basicOut
    simp only [hlow, hstoi l hp, isInteger_intText]
    rfl
  | fixedChar l n =>
    have hr := res_text (res_basic inside (decide (n = .nullable))
      (numbers := [intText l]) (id := "fixedchar".toList) ⟨by decide, by decide⟩ (by decide)
      (by intro x hx; simp at hx; subst hx; exact isNumberText_intText _))
    have ht : (printType (.fixedChar l n)).1 =
        (TypeTree.basic "fixedchar".toList (decide (n = .nullable)) [intText l]).text := by
      rw [printType_fixedchar]
      simp [TypeTree.text, hb, commaText]
    rw [ht, hr]
    have hlow : "fixedchar".toList.map toLower = "fixedchar".toList := by decide
    unfold basicOut
    simp only [hlow, hstoi l hp]
    rfl
  | _ => simp [printable] at h

/-- **C37, the part of the property that holds** (`_partial`: the full property also covers
types whose nullability is not specified; see `printType_unspecified_fails`). -/
theorem printType_reread_partial (inside : Bool) (t : PbType) (h : (printType t).2 = [])
    (hp : paramsFit t) (hn : nullability t ≠ .unspecified) :
    textToTypeProto inside (printType t).1 = .ok (t, []) := by
  have hpr := (printType_errors t).mp h
  rw [printType_reread inside t hpr hp]
  cases t with
  | scalar k n => cases n <;> first | rfl | exact absurd rfl hn
  | decimal p s n => cases n <;> first | rfl | exact absurd rfl hn
  | varchar l n => cases n <;> first | rfl | exact absurd rfl hn
  | fixedChar l n => cases n <;> first | rfl | exact absurd rfl hn
  | _ => simp [printable] at hpr

/-- **C37 as stated is false**: an `i32` whose nullability is not specified comes back as a
required `i32`. -/
theorem printType_unspecified_fails :
    (printType (.scalar .i32 .unspecified)).2 = [] ∧
    textToTypeProto false (printType (.scalar .i32 .unspecified)).1 =
      .ok (.scalar .i32 .required, []) := ⟨rfl, rfl⟩

/-- Non-vacuity of C37. -/
example : (printType (.decimal 38 (-2) .nullable)).2 = [] ∧
    paramsFit (.decimal 38 (-2) .nullable) ∧
    (printType (.decimal 38 (-2) .nullable)).1 = "decimal?<38,-2>".toList := by
  refine ⟨rfl, ⟨by decide, by decide⟩, by decide +kernel⟩

end Verif.TyPb
