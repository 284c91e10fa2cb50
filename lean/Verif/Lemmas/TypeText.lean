import Verif.Lemmas.TypeDecode

/-! Helper lemmas on the text of concrete types. -/

namespace Verif.Ty

open Verif StringUtils

theorem isName_list : IsName "list".toList := ⟨by decide, by decide⟩
theorem isName_map : IsName "map".toList := ⟨by decide, by decide⟩
theorem isName_struct : IsName "struct".toList := ⟨by decide, by decide⟩
theorem isName_decimal : IsName "decimal".toList := ⟨by decide, by decide⟩
theorem isName_varchar : IsName "varchar".toList := ⟨by decide, by decide⟩
theorem isName_fixedchar : IsName "fixedchar".toList := ⟨by decide, by decide⟩
theorem isName_fixedbinary : IsName "fixedbinary".toList := ⟨by decide, by decide⟩

theorem plain_natText (n : Nat) : ∀ c ∈ natText n, c ≠ '<' ∧ c ≠ '>' ∧ c ≠ ',' := by
  intro c hc
  have := (isDigit_iff c).mp (natText_digits n c hc)
  refine ⟨?_, ?_, ?_⟩ <;> (rintro rfl; revert this; decide)

theorem inert_intText (i : Int) : Inert (intText i) := by
  apply inert_of_plain
  cases i with
  | ofNat n => exact plain_natText n
  | negSucc n =>
    intro c hc
    simp only [intText, List.mem_cons] at hc
    rcases hc with rfl | hc
    · decide
    · exact plain_natText _ c hc

theorem inert_word {name : Str} (hn : IsName name) (n : Bool) : Inert (name ++ mark n) := by
  apply inert_of_plain
  intro c hc
  rcases List.mem_append.mp hc with hc | hc
  · have := hn.letters c hc
    refine ⟨?_, ?_, ?_⟩ <;> (rintro rfl; revert this; decide)
  · cases n <;> simp [mark] at hc; subst hc; decide

theorem inert_angleText {name : Str} (hn : IsName name) (n : Bool) {inner : Str}
    (h : InertIn inner) : Inert (name ++ mark n ++ '<' :: inner ++ ['>']) := by
  rw [List.append_assoc]
  exact (inert_word hn n).append (inert_angle h)

theorem inert_scalarText (k : Scalar) (n : Bool) : Inert ((specName k).toList ++ mark n) := by
  apply inert_of_plain
  cases k <;> cases n <;> decide

theorem objs_eq (cs : List CType) : CType.objs cs = cs.map CType.obj := by
  induction cs with
  | nil => rfl
  | cons c cs ih => simp [CType.objs, ih]

theorem texts_eq (cs : List CType) : CType.texts cs = cs.map CType.text := by
  induction cs with
  | nil => rfl
  | cons c cs ih => simp [CType.texts, ih]

mutual
theorem inert_text : ∀ t : CType, Inert t.text
  | .scalar k n => inert_scalarText k n
  | .decimal p s n => inert_angleText isName_decimal n (inertIn_commas (by
      intro w hw; simp at hw; rcases hw with rfl | rfl <;> exact inert_intText _))
  | .fixedBinary l n => inert_angleText isName_fixedbinary n (inert_intText l).inertIn
  | .fixedChar l n => inert_angleText isName_fixedchar n (inert_intText l).inertIn
  | .varchar l n => inert_angleText isName_varchar n (inert_intText l).inertIn
  | .list e n => inert_angleText isName_list n (inert_text e).inertIn
  | .struct cs n => inert_angleText isName_struct n (inertIn_commas (inert_texts cs))
  | .map k v n => inert_angleText isName_map n (inertIn_commas (by
      intro w hw; simp at hw
      rcases hw with rfl | rfl
      · exact inert_text k
      · exact inert_text v))
theorem inert_texts : ∀ cs : List CType, ∀ w ∈ CType.texts cs, Inert w
  | [], w, hw => by simp [CType.texts] at hw
  | c :: cs, w, hw => by
    simp only [CType.texts, List.mem_cons] at hw
    rcases hw with rfl | hw
    · exact inert_text c
    · exact inert_texts cs w hw
end

/-! ## Question marks -/

theorem q_intText (i : Int) : '?' ∉ intText i := by
  cases i with
  | ofNat n => exact natText_not_mem n (by decide)
  | negSucc n =>
    simp only [intText, List.mem_cons, not_or]
    exact ⟨by decide, natText_not_mem _ (by decide)⟩

theorem q_commas (ws : List Str) : '?' ∈ commas ws ↔ ∃ w ∈ ws, '?' ∈ w := by
  induction ws with
  | nil => simp [commas]
  | cons w rest ih =>
    cases rest with
    | nil => simp [commas]
    | cons w2 rest => simp only [commas, List.mem_append, List.mem_cons] at ih ⊢; simp [ih]

theorem q_angle {name : String} (hn : IsName name.toList) (n : Bool) (inner : Str) :
    '?' ∈ angle name n inner ↔ n = true ∨ '?' ∈ inner := by
  have : '?' ∉ name.toList := hn.not_mem (by decide)
  cases n <;> simp [angle, mark, this]

theorem q_scalar (k : Scalar) (n : Bool) :
    '?' ∈ (specName k).toList ++ mark n ↔ n = true := by
  have : ∀ k n, decide ('?' ∈ (specName k).toList ++ mark n) = n := by
    intro k n; cases k <;> cases n <;> decide
  have := this k n
  constructor
  · intro h; simpa [h] using this.symm
  · rintro rfl; simpa using this

mutual
theorem q_text : ∀ t : CType, '?' ∈ t.text ↔ t.hasNullable = true
  | .scalar k n => q_scalar k n
  | .decimal p s n => by
    rw [CType.text, q_angle isName_decimal, q_commas]
    simp [q_intText, CType.hasNullable]
  | .fixedBinary l n => by
    rw [CType.text, q_angle isName_fixedbinary]; simp [q_intText, CType.hasNullable]
  | .fixedChar l n => by
    rw [CType.text, q_angle isName_fixedchar]; simp [q_intText, CType.hasNullable]
  | .varchar l n => by
    rw [CType.text, q_angle isName_varchar]; simp [q_intText, CType.hasNullable]
  | .list e n => by
    rw [CType.text, q_angle isName_list, q_text e]; simp [CType.hasNullable]
  | .struct cs n => by
    rw [CType.text, q_angle isName_struct, q_commas, q_texts cs]; simp [CType.hasNullable]
  | .map k v n => by
    rw [CType.text, q_angle isName_map, q_commas]
    simp [q_text k, q_text v, CType.hasNullable, or_assoc]
theorem q_texts : ∀ cs : List CType, (∃ w ∈ CType.texts cs, '?' ∈ w) ↔ CType.anyNullable cs = true
  | [] => by simp [CType.texts, CType.anyNullable]
  | c :: cs => by
    simp only [CType.texts, List.mem_cons, exists_eq_or_imp, CType.anyNullable, Bool.or_eq_true]
    rw [q_text c, q_texts cs]
end

theorem castType_obj (t : CType) : castType t.obj = t.obj := by
  cases t <;> simp [CType.obj, castType]

theorem stoi_natText {n : Nat} (h : n ≤ 2147483647) : stoi (natText n) = .ok (n : Int) := by
  simp [stoi, digitsVal_natText, h]

theorem decode_scalar (p : Bool) (k : Scalar) (n : Bool) :
    decode p ((specName k).toList ++ mark n) = .ok (.scalar k n) := by
  have h1 : ∀ k n, trim ((specName k).toList ++ mark n) = (specName k).toList ++ mark n := by
    intro k n; cases k <;> cases n <;> decide
  have h2 : ∀ k n, '<' ∉ (specName k).toList ++ mark n := by
    intro k n; cases k <;> cases n <;> decide
  have h3 : ∀ k n, decodeSimple ((specName k).toList ++ mark n) = .scalar k n := by
    intro k n; cases k <;> cases n <;> rfl
  rw [decode_simple p (by rw [h1]; exact h2 k n), h1, h3]

/-- Decoding the text of a fixed-length type. -/
theorem decode_length {name : String} (hn : IsName name.toList) (n : Bool) {l : Int}
    (hl : IntParam l) {pcls : PType → Bool → PType} {cls : Int → Bool → PType}
    (hb : ∀ ps, decodeByName name.toList false n ps = decodeLength pcls cls false n ps) :
    decode false (angle name n (intText l)) = .ok (cls l n) := by
  have hin : '?' ∉ commas [intText l] := by simpa [commas] using q_intText l
  have := decode_angle hn n false (ws := [intText l]) (by simp)
    (by intro w hw; simp at hw; subst hw; exact inert_intText l)
  rw [if_neg (by simp [hin])] at this
  rw [angle, show intText l = commas [intText l] from rfl, this]
  rw [intText_of_nonneg hl.1]
  simp only [Outcome.mapM_cons, Outcome.mapM_nil, decode_natText, Outcome.bind_ok, hb]
  have hle : l.toNat ≤ 2147483647 := by have := hl.2; omega
  simp only [decodeLength, castLit, isNonNegativeInteger_natText, if_true,
    stoi_natText hle, Outcome.bind_ok, Int.toNat_of_nonneg hl.1, Bool.false_eq_true, if_false]

/-! ## Decoding the text of a concrete type -/

mutual
/-- Helper for `decode_text`, by structural recursion. -/
theorem decode_text_aux : ∀ t : CType, t.spellable = true →
    decode false t.text =
      if t.noNullInNull = true then .ok t.obj else .throw .unsupported
  | .scalar k n, _ => by
    simp only [CType.text, CType.noNullInNull, CType.obj, if_true]; exact decode_scalar false k n
  | .decimal p s n, h => by
    simp only [CType.spellable, Bool.and_eq_true, decide_eq_true_eq] at h
    have hin : '?' ∉ commas [intText p, intText s] := by
      rw [q_commas]; simp [q_intText]
    have := decode_angle isName_decimal n false (ws := [intText p, intText s]) (by simp)
      (by intro w hw; simp at hw; rcases hw with rfl | rfl <;> exact inert_intText _)
    rw [if_neg (by simp [hin])] at this
    simp only [CType.text, angle, this, CType.noNullInNull, CType.obj, if_true]
    rw [intText_of_nonneg h.1.1, intText_of_nonneg h.2.1]
    have h1 : p.toNat ≤ 2147483647 := by have := h.1.2; omega
    have h2 : s.toNat ≤ 2147483647 := by have := h.2.2; omega
    simp only [Outcome.mapM_cons, Outcome.mapM_nil, decode_natText, Outcome.bind_ok]
    have hb : ∀ ps, decodeByName "decimal".toList false n ps = decodeDecimal false n ps :=
      fun _ => rfl
    rw [hb]
    simp only [decodeDecimal, castLit, isNonNegativeInteger_natText, if_true, stoi_natText h1,
      stoi_natText h2, Outcome.bind_ok, Int.toNat_of_nonneg h.1.1, Int.toNat_of_nonneg h.2.1,
      Bool.false_eq_true, if_false]
  | .fixedBinary l n, h => by
    simp only [CType.spellable, decide_eq_true_eq] at h
    simpa [CType.text, CType.noNullInNull, CType.obj] using
      decode_length isName_fixedbinary n h (pcls := .pFixedBinary) (cls := .fixedBinary)
        (fun _ => rfl)
  | .fixedChar l n, h => by
    simp only [CType.spellable, decide_eq_true_eq] at h
    simpa [CType.text, CType.noNullInNull, CType.obj] using
      decode_length isName_fixedchar n h (pcls := .pFixedChar) (cls := .fixedChar)
        (fun _ => rfl)
  | .varchar l n, h => by
    simp only [CType.spellable, decide_eq_true_eq] at h
    simpa [CType.text, CType.noNullInNull, CType.obj] using
      decode_length isName_varchar n h (pcls := .pVarchar) (cls := .varchar)
        (fun _ => rfl)
  | .list e n, h => by
    simp only [CType.spellable] at h
    have ih := decode_text_aux e h
    have := decode_angle isName_list n false (ws := [e.text]) (by simp)
      (by intro w hw; simp at hw; subst hw; exact inert_text e)
    simp only [CType.text, angle]
    rw [show e.text = commas [e.text] from rfl, this]
    simp only [commas, q_text, Outcome.mapM_cons, Outcome.mapM_nil, ih, CType.noNullInNull,
      CType.obj]
    rcases Bool.eq_false_or_eq_true (e.noNullInNull) with he | he <;> cases n <;> rcases Bool.eq_false_or_eq_true (e.hasNullable) with hq | hq <;>
      simp [he, hq, decodeByName, decodeList, castType_obj]
  | .struct cs n, h => by
    simp only [CType.spellable, Bool.and_eq_true, Bool.not_eq_true', List.isEmpty_eq_false_iff] at h
    have ih := decode_texts_aux cs h.2
    have hne : CType.texts cs ≠ [] := by rw [texts_eq]; simpa using h.1
    have := decode_angle isName_struct n false hne (inert_texts cs)
    simp only [CType.text, angle]
    rw [this]
    simp only [q_commas, q_texts, ih, CType.noNullInNull, CType.obj]
    have hm : (CType.objs cs).map castType = CType.objs cs := by
      rw [objs_eq, List.map_map]; exact List.map_congr_left fun c _ => castType_obj c
    rcases Bool.eq_false_or_eq_true (CType.allNoNullInNull cs) with he | he <;> cases n <;> rcases Bool.eq_false_or_eq_true (CType.anyNullable cs) with hq | hq <;>
      simp [he, hq, decodeByName, decodeStruct, hm]
  | .map k v n, h => by
    simp only [CType.spellable, Bool.and_eq_true] at h
    have ihk := decode_text_aux k h.1
    have ihv := decode_text_aux v h.2
    have := decode_angle isName_map n false (ws := [k.text, v.text]) (by simp)
      (by intro w hw; simp at hw; rcases hw with rfl | rfl <;> exact inert_text _)
    simp only [CType.text, angle]
    rw [this]
    simp only [q_commas, List.mem_cons, List.not_mem_nil, or_false, exists_eq_or_imp,
      exists_eq_left, q_text, Outcome.mapM_cons, Outcome.mapM_nil, ihk, ihv,
      CType.noNullInNull, CType.obj]
    rcases Bool.eq_false_or_eq_true (k.noNullInNull) with hk | hk <;> rcases Bool.eq_false_or_eq_true (v.noNullInNull) with hv | hv <;> cases n <;>
      rcases Bool.eq_false_or_eq_true (k.hasNullable) with hq | hq <;> rcases Bool.eq_false_or_eq_true (v.hasNullable) with hq' | hq' <;>
      simp [hk, hv, hq, hq', decodeByName, decodeMap, castType_obj]
/-- Helper for `decode_text`: lists of fields. -/
theorem decode_texts_aux : ∀ cs : List CType, CType.spellables cs = true →
    Outcome.mapM (decode false) (CType.texts cs) =
      if CType.allNoNullInNull cs = true then .ok (CType.objs cs) else .throw .unsupported
  | [], _ => rfl
  | c :: cs, h => by
    simp only [CType.spellables, Bool.and_eq_true] at h
    simp only [CType.texts, Outcome.mapM_cons, decode_text_aux c h.1, decode_texts_aux cs h.2,
      CType.allNoNullInNull, CType.objs]
    rcases Bool.eq_false_or_eq_true (c.noNullInNull) with h1 | h1 <;> rcases Bool.eq_false_or_eq_true (CType.allNoNullInNull cs) with h2 | h2 <;> simp [h1, h2]
end


end Verif.Ty
