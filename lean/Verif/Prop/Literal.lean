import Verif.Lemmas.Literal

/-!
# C35, C52, C53: literals in text plans
-/

namespace Verif.Literal

open Verif Verif.Ty Verif.TyPb Verif.Tree Verif.Lex Verif.Parse

/-! ## C35: printing and reading -/

/-- Text and errors, given the text of the atom. -/
def printed (t : Option Str) (n : Bool) : Str × List LitPrintErr :=
  match t with
  | some t => (if n then t ++ ['?'] else t, [])
  | none => ("UNSUPPORTED_LITERAL_TYPE".toList, [.unsupported])

theorem printLiteral_atom (lib : Lib) (a : Atom) (n : Bool) (h : a ≠ .notSet) :
    printLiteral lib (.atom a n) = printed (atomText lib a) n := by
  cases a <;> first
    | exact absurd rfl h
    | rfl

theorem printLiteral_text {lib : Lib} {a : Atom} {t : Str} (h : atomText lib a = some t)
    (n : Bool) : printLiteral lib (.atom a n) = (t ++ questionText n, []) := by
  have hn : a ≠ .notSet := by
    intro e
    rw [e] at h
    exact Option.some_ne_none t (h.symm.trans rfl)
  rw [printLiteral_atom lib a n hn, h]
  cases n
  · exact congrArg (·, []) (List.append_nil t).symm
  · rfl

theorem printLiteral_none {lib : Lib} {a : Atom} (h : atomText lib a = none) (n : Bool) :
    (printLiteral lib (.atom a n)).2 ≠ [] := by
  by_cases hn : a = .notSet
  · subst hn; exact List.cons_ne_nil _ _
  · rw [printLiteral_atom lib a n hn, h]; exact List.cons_ne_nil _ _

theorem read_bool (lib : Lib) (b n : Bool) :
    readLiteral lib ((if b then ['1'] else ['0']) ++ questionText n) =
      if n then none else some (.ok (empty, [.noType])) := by
  have hl : lex ((if b then ['1'] else ['0']) ++ questionText n ++ [';']) =
      some (⟨.number, if b then ['1'] else ['0']⟩ :: endToks n) := by
    cases b <;> cases n <;> decide +kernel
  have hp : parseLiteral ((if b then ['1'] else ['0']) ++ questionText n) =
      if n then none else some (.number (if b then ['1'] else ['0']) none) :=
    parseLiteral_of hl (.inl rfl) (by cases n <;> rfl)
  unfold readLiteral
  rw [hp]
  cases n <;> rfl

/-- A literal with a text reads back exactly if that text is read as the literal. -/
theorem readsBack_iff {lib : Lib} {a : Atom} {t : Str} (h : atomText lib a = some t) (n : Bool)
    {r : Option (Outcome Read)} (hr : readLiteral lib (t ++ questionText n) = r) :
    ReadsBack lib (.atom a n) ↔ r = some (.ok (.atom a n, [])) := by
  unfold ReadsBack
  rw [printLiteral_text h n, hr]
  simp

theorem orNumberError_ok {α : Type} (f : α → PbLit) (hf : ∀ v w, f v = f w → v = w)
    (o : Outcome α) (x : α) :
    (some (orNumberError f o) = some (.ok (f x, [])) : Prop) ↔ o = .ok x := by
  cases o with
  | ok v => simp only [orNumberError, Option.some.injEq, Outcome.ok.injEq, Prod.mk.injEq, and_true]
            exact ⟨fun h => hf _ _ h, fun h => by rw [h]⟩
  | throw e => simp [orNumberError]
  | ub => simp [orNumberError]

/-- **C35, exact behaviour.**  Printing a literal and reading the text gives the same literal
without an error exactly for the literals of `Survives`: integers and those floating point
numbers the library reads back; and, if they are not nullable, strings, dates of the years
-9999 to 9999, intervals, fixed and variable length strings and decimals with a value that is
not negative. -/
theorem literal_roundtrip (lib : Lib) (hlib : lib.Numerals) (a : Atom) (n : Bool)
    (hfit : a.fits) (hnb : a.noBackslash) :
    ReadsBack lib (.atom a n) ↔ Survives lib a n := by
  cases a with
  | i8 v => rw [readsBack_iff rfl n (read_i8 lib v hfit n)]; simp [Survives]
  | i16 v => rw [readsBack_iff rfl n (read_i16 lib v hfit n)]; simp [Survives]
  | i32 v => rw [readsBack_iff rfl n (read_i32 lib v hfit n)]; simp [Survives]
  | i64 v => rw [readsBack_iff rfl n (read_i64 lib v hfit n)]; simp [Survives]
  | fp32 x =>
    by_cases hf : lib.print32 x ∈ notFinite
    · rw [readsBack_iff rfl n (read_notFinite lib _ hf n _ (.inl rfl))]
      simp [Survives, hf]
    · have hnum := (hlib.1 x).resolve_right hf
      rw [readsBack_iff rfl n (read_fp32 lib _ hnum n),
        orNumberError_ok _ (by intro v w h; simpa using h)]
      simp [Survives, hf]
  | fp64 x =>
    by_cases hf : lib.print64 x ∈ notFinite
    · rw [readsBack_iff rfl n (read_notFinite lib _ hf n _ (.inr rfl))]
      simp [Survives, hf]
    · have hnum := (hlib.2 x).resolve_right hf
      rw [readsBack_iff rfl n (read_fp64 lib _ hnum n),
        orNumberError_ok _ (by intro v w h; simpa using h)]
      simp [Survives, hf]
  | date z =>
    rw [readsBack_iff rfl n (read_date lib z n)]
    simp only [Survives, ← Date.parseDate_dateText z]
    cases Date.parseDate (Date.dateText z) with
    | none => simp [empty]
    | some v => simp [eq_comm, and_comm]
  | string s => rw [readsBack_iff rfl n (read_string lib s hnb n)]; simp [Survives, eq_comm]
  | intervalYear y m =>
    rw [readsBack_iff rfl n (read_intervalYear lib y m hfit.1 hfit.2 n)]
    simp [Survives, eq_comm]
  | intervalDay d s u =>
    rw [readsBack_iff rfl n (read_intervalDay lib d s u hfit.1 hfit.2.1 hfit.2.2 n)]
    simp [Survives, eq_comm]
  | fixedChar s =>
    rw [readsBack_iff rfl n (read_fixedChar lib s hnb n)]
    cases n
    · by_cases h : s.length ≤ 2147483647 <;> simp [Survives, h]
    · simp [Survives]
  | varChar s l =>
    obtain ⟨k, rfl⟩ : ∃ k : Nat, l = k := ⟨l.toNat, by have := hfit.1; omega⟩
    rw [readsBack_iff rfl n (read_varChar lib s hnb k n)]
    cases n
    · by_cases h : k ≤ 2147483647
      · have : (k : Int) ≤ 2147483647 := by omega
        simp [Survives, h, this]
      · have : ¬ (k : Int) ≤ 2147483647 := by omega
        simp [Survives, h, this]
    · simp [Survives]
  | decimal d =>
    rw [readsBack_iff rfl n (read_decimal lib d hfit.1 hfit.2 n)]
    cases n
    · simp only [Bool.false_eq_true, if_false, Survives, true_and]
      constructor
      · intro h
        simp only [visitNumber, Option.some.injEq] at h
        split at h
        · rename_i hv
          simp only [Outcome.ok.injEq, Prod.mk.injEq, PbLit.atom.injEq, Atom.decimal.injEq,
            and_true] at h
          have hd := congrArg Decimal.fromProto h.1
          rw [(Decimal.proto_roundtrip _ d).1] at hd
          rw [hd] at hv
          obtain ⟨h16, hp1, hp2⟩ := (Decimal.isValid_iff _).mp hv
          refine ⟨h16, ?_, hp1, hp2⟩
          refine Classical.byContradiction fun hneg => ?_
          have h16' : (Decimal.fromProto d).value.length = 16 := h16
          have ht := Decimal.toBaseString_eq (Decimal.fromProto d) (by omega)
          have hlt := Decimal.unsigned_lt d.value
          rw [show d.value.length = 16 from h16] at hlt
          have hs : ∃ k : Nat, Decimal.signed d.value = Int.negSucc k := by
            unfold Decimal.signed
            rw [show d.value.length = 16 from h16, if_neg hneg]
            refine ⟨256 ^ 16 - Decimal.unsigned d.value - 1, ?_⟩
            rw [Int.negSucc_eq]
            generalize Decimal.unsigned d.value = u at *
            omega
          obtain ⟨k, hk⟩ := hs
          rw [ht, show (Decimal.fromProto d).value = d.value from rfl, hk] at hd
          have hneg' := Decimal.fromString_negative (k + 1) d.precision d.scale
          rw [show intText (Int.negSucc k) = '-' :: natText (k + 1) from rfl, hneg'] at hd
          have : d.value = [] := by
            have := congrArg Decimal.Literal.value hd
            exact this.symm
          rw [show (Decimal.fromProto d).value = [] from this] at h16
          simp at h16
        · simp [empty] at h
      · rintro ⟨h16, hpos, hp1, hp2⟩
        have hb := Decimal.bytes_roundtrip_partial (Decimal.fromProto d) h16 hpos
        have hb' : Decimal.fromString (Decimal.fromProto d).toBaseString d.precision d.scale =
            Decimal.fromProto d := hb
        have hv : (Decimal.fromProto d).isValid = true :=
          (Decimal.isValid_iff _).mpr ⟨h16, hp1, hp2⟩
        simp only [visitNumber, hb', hv, if_true]
        rfl
    · simp [Survives]
  | boolean b =>
    refine ⟨fun h => ?_, fun h => absurd h (by simp [Survives])⟩
    rw [readsBack_iff rfl n (read_bool lib b n)] at h
    cases n <;> simp [empty] at h
  | _ =>
    refine ⟨fun h => absurd h.1 (printLiteral_none rfl n), fun h => absurd h (by simp [Survives])⟩

/-- Structs, lists and maps are never printed: an error is reported. -/
theorem nested_not_printed (lib : Lib) (fs vs ks : List PbLit) (n : Bool) :
    (printLiteral lib (.struct fs n)).2 = [.unsupported] ∧
    (printLiteral lib (.list vs n)).2 = [.unsupported] ∧
    (printLiteral lib (.map ks vs n)).2 = [.unsupported] := ⟨rfl, rfl, rfl⟩

/-- **C35, the part of the property that holds** (`_partial`: booleans, nullable dates,
intervals and decimals, dates outside the years -9999 to 9999 and negative decimals are
missing; see the witnesses below). -/
theorem literal_roundtrip_partial (lib : Lib) :
    (∀ v, Int32 v → ∀ n, ReadsBack lib (.atom (.i8 v) n) ∧ ReadsBack lib (.atom (.i16 v) n) ∧
      ReadsBack lib (.atom (.i32 v) n)) ∧
    (∀ v, Int64 v → ∀ n, ReadsBack lib (.atom (.i64 v) n)) ∧
    (∀ d, -4371587 ≤ d → d ≤ 2932896 → ReadsBack lib (.atom (.date d) false)) ∧
    (∀ y m, Int32 y → Int32 m → ReadsBack lib (.atom (.intervalYear y m) false)) ∧
    (∀ d s u, Int32 d → Int32 s → Int32 u → ReadsBack lib (.atom (.intervalDay d s u) false)) ∧
    (∀ d : Decimal.Proto, Int32 d.scale → d.value.length = 16 →
      2 * Decimal.unsigned d.value < 256 ^ 16 → 1 ≤ d.precision → d.precision ≤ 38 →
      ReadsBack lib (.atom (.decimal d) false)) := by
  refine ⟨fun v h n => ⟨?_, ?_, ?_⟩, fun v h n => ?_, fun d h1 h2 => ?_, fun y m hy hm => ?_,
    fun d s u hd hs hu => ?_, fun d hs h16 hpos hp1 hp2 => ?_⟩
  · exact (readsBack_iff rfl n (read_i8 lib v h n)).mpr rfl
  · exact (readsBack_iff rfl n (read_i16 lib v h n)).mpr rfl
  · exact (readsBack_iff rfl n (read_i32 lib v h n)).mpr rfl
  · exact (readsBack_iff rfl n (read_i64 lib v h n)).mpr rfl
  · refine (readsBack_iff rfl false (read_date lib d false)).mpr ?_
    rw [(Date.parseDate_dateText d).mpr ⟨h1, h2⟩]
  · exact (readsBack_iff rfl false (read_intervalYear lib y m hy hm false)).mpr rfl
  · exact (readsBack_iff rfl false (read_intervalDay lib d s u hd hs hu false)).mpr rfl
  · have hp : Int32 d.precision := by constructor <;> omega
    refine (readsBack_iff rfl false (read_decimal lib d hp hs false)).mpr ?_
    have hb : Decimal.fromString (Decimal.fromProto d).toBaseString d.precision d.scale =
        Decimal.fromProto d := Decimal.bytes_roundtrip_partial (Decimal.fromProto d) h16 hpos
    have hv : (Decimal.fromProto d).isValid = true :=
      (Decimal.isValid_iff _).mpr ⟨h16, hp1, hp2⟩
    simp only [visitNumber, hb, hv, if_true]
    rfl

/-- Non-vacuity of C35: the largest 64-bit number, a date before Christ and a decimal. -/
example (lib : Lib) : ReadsBack lib (.atom (.i64 9223372036854775807) true) ∧
    ReadsBack lib (.atom (.date (-800000)) false) ∧
    ReadsBack lib (.atom (.decimal ⟨123 :: List.replicate 15 0, 5, 2⟩) false) := by
  obtain ⟨-, h64, hd, -, -, hdec⟩ := literal_roundtrip_partial lib
  exact ⟨h64 _ (by decide) _, hd _ (by decide) (by decide),
    hdec _ (by decide) (by decide) (by decide +kernel) (by decide) (by decide)⟩

/-- **C35 as stated is false**: no boolean survives. -/
theorem boolean_fails (lib : Lib) (b n : Bool) : ¬ ReadsBack lib (.atom (.boolean b) n) := by
  intro h
  rw [readsBack_iff rfl n (read_bool lib b n)] at h
  cases n <;> simp [empty] at h

/-- **C35 as stated is false**: a nullable date or interval comes back as not nullable and
without an error. -/
theorem nullable_lost (lib : Lib) (y m : Int) (hy : Int32 y) (hm : Int32 m) :
    readLiteral lib (printLiteral lib (.atom (.intervalYear y m) true)).1 =
      some (.ok (.atom (.intervalYear y m) false, [])) ∧
    readLiteral lib (printLiteral lib (.atom (.date 0) true)).1 =
      some (.ok (.atom (.date 0) false, [])) := by
  refine ⟨?_, ?_⟩
  · rw [printLiteral_text rfl]; exact read_intervalYear lib y m hy hm true
  · rw [printLiteral_text rfl, read_date lib 0 true,
      (Date.parseDate_dateText 0).mpr ⟨by decide, by decide⟩]

/-- **C35 as stated is false**: a nullable decimal is a syntax error. -/
theorem nullable_decimal_fails (lib : Lib) (d : Decimal.Proto) (hp : Int32 d.precision)
    (hs : Int32 d.scale) :
    readLiteral lib (printLiteral lib (.atom (.decimal d) true)).1 = none := by
  rw [printLiteral_text rfl, read_decimal lib d hp hs true]
  rfl

/-- **C35 as stated is false**: the first day of the year 67536 comes back, without an error,
as the first day of the year 2000. -/
theorem date_wraps (lib : Lib) :
    readLiteral lib (printLiteral lib (.atom (.date 23947489) false)).1 =
      some (.ok (.atom (.date 10957) false, [])) := by
  rw [printLiteral_text rfl, read_date lib _ false,
    show Date.parseDate (Date.dateText 23947489) = some 10957 by decide +kernel]

/-- **C35 as stated is false**: a negative decimal is refused. -/
theorem negative_decimal_fails (lib : Lib) :
    readLiteral lib (printLiteral lib (.atom (.decimal ⟨List.replicate 16 255, 3, 0⟩) false)).1 =
      some (.ok (empty, [.decimal])) := by
  rw [printLiteral_text rfl, read_decimal lib _ (by decide) (by decide) false]
  rw [show (Decimal.fromProto ⟨List.replicate 16 255, 3, 0⟩).toBaseString = '-' :: natText 1 by
    decide +kernel]
  simp only [Bool.false_eq_true, if_false, visitNumber, Decimal.fromString_negative]
  rfl

/-! ## C52: fields of intervals -/

/-- What is read of the fields of an interval is defined exactly if they are all there. -/
theorem intervalYear_defined (fields : List PbLit) :
    intervalYear fields ≠ .ub ↔ 2 ≤ fields.length := by
  cases fields with
  | nil => simp [intervalYear, fieldI32, Outcome.bind]
  | cons a r =>
    cases r with
    | nil => simp [intervalYear, fieldI32, Outcome.bind]
    | cons b r => simp [intervalYear, fieldI32, Outcome.bind]

theorem intervalDay_defined (fields : List PbLit) :
    intervalDay fields ≠ .ub ↔ 3 ≤ fields.length := by
  cases fields with
  | nil => simp [intervalDay, fieldI32, Outcome.bind]
  | cons a r =>
    cases r with
    | nil => simp [intervalDay, fieldI32, Outcome.bind]
    | cons b r =>
      cases r with
      | nil => simp [intervalDay, fieldI32, Outcome.bind]
      | cons c r => simp [intervalDay, fieldI32, Outcome.bind]

theorem collect_length : ∀ (os : List (Outcome Read)) (r : List PbLit × List LitErr),
    collect os = .ok r → r.1.length = os.length
  | [], r, h => by simp only [collect, Outcome.ok.injEq] at h; subst h; rfl
  | o :: os, r, h => by
    cases o with
    | ok a =>
      simp only [collect, Outcome.bind] at h
      cases hc : collect os with
      | ok b =>
        rw [hc] at h
        simp only [Outcome.map, Outcome.ok.injEq] at h
        subst h
        simp [collect_length os b hc]
      | throw e => rw [hc] at h; simp [Outcome.map] at h
      | ub => rw [hc] at h; simp [Outcome.map] at h
    | throw e => simp [collect, Outcome.bind] at h
    | ub => simp [collect, Outcome.bind] at h

theorem visitEach_length (lib : Lib) (inside : Bool) : ∀ (es : List (Option PbType))
    (cs : List ConstTree), (visitEach lib inside es cs).length = min es.length cs.length
  | [], cs => by simp [visitEach]
  | e :: es, [] => by simp [visitEach]
  | e :: es, c :: cs => by simp [visitEach, visitEach_length lib inside es cs]

/-- **C52, exact behaviour.**  Provided its fields can be read, an interval written in braces
is read without reaching past the end of its fields exactly if it has two fields (years and
months) or three (days, seconds and microseconds) or more. -/
theorem interval_defined (lib : Lib) (items : List ConstTree) (n : Nullability)
    (r2 r3 : List PbLit × List LitErr)
    (h2 : collect (visitEach lib true ((i32Types 2).map some) items) = .ok r2)
    (h3 : collect (visitEach lib true ((i32Types 3).map some) items) = .ok r3) :
    (visitConst lib false (some (.scalar .intervalYear n)) (.structLit items none) ≠ .ub ↔
      2 ≤ items.length) ∧
    (visitConst lib false (some (.scalar .intervalDay n)) (.structLit items none) ≠ .ub ↔
      3 ≤ items.length) := by
  have l2 := collect_length _ _ h2
  have l3 := collect_length _ _ h3
  rw [visitEach_length] at l2 l3
  simp only [i32Types, List.length_map, List.length_replicate] at l2 l3
  constructor
  · rw [visitConst]
    simp only [typeFor, Outcome.bind, structOf, h2, Outcome.map]
    have := intervalYear_defined r2.1
    cases h : intervalYear r2.1 <;> simp_all <;> omega
  · rw [visitConst]
    simp only [typeFor, Outcome.bind, structOf, h3, Outcome.map]
    have := intervalDay_defined r3.1
    cases h : intervalDay r3.1 <;> simp_all <;> omega

/-- **C52, the part of the property that holds** (`_partial`: braces are missing; see
`interval_defined` and the witnesses). -/
theorem constant_defined_partial (lib : Lib) (h32 : ∀ s, lib.read32 s ≠ .ub)
    (h64 : ∀ s, lib.read64 s ≠ .ub) (text : Str) (ty : PbType)
    (ht : StrLit.stringText text ≠ .ub) :
    visitNumber lib text ty ≠ .ub ∧ typedString lib text ty ≠ .ub := by
  have ho : ∀ {α : Type} (f : α → PbLit) (o : Outcome α), o ≠ .ub → orNumberError f o ≠ .ub := by
    intro α f o h
    cases o with
    | ok v => simp [orNumberError]
    | throw e => simp [orNumberError]
    | ub => exact absurd rfl h
  have hb : ∀ b s, stoBound b s ≠ .ub := by
    intro b s
    unfold stoBound
    simp only
    split
    · simp
    · split <;> split <;> simp
  constructor
  · unfold visitNumber
    split
    · exact ho _ _ (hb _ _)
    · exact ho _ _ (hb _ _)
    · exact ho _ _ (hb _ _)
    · exact ho _ _ (hb _ _)
    · exact ho _ _ (h32 _)
    · exact ho _ _ (h64 _)
    · simp only; split <;> simp
    · simp
  · cases hs : StrLit.stringText text with
    | ub => exact absurd hs ht
    | throw e =>
      unfold typedString
      split <;> simp [visitTimestamp, visitTimestampTz, visitDate, visitTime, visitString,
        plainString, hs, Outcome.bind]
    | ok r =>
      unfold typedString
      split
      · simp only [visitTimestamp, plainString, hs, Outcome.bind]
        cases lib.timestamp r.1 <;> simp
      · simp only [visitTimestampTz, plainString, hs, Outcome.bind]
        rcases lib.timestampTz r.1 with _ | _ | _ <;> simp
      · simp only [visitDate, plainString, hs, Outcome.bind]
        cases Date.parseDate r.1 <;> simp
      · simp only [visitTime, plainString, hs, Outcome.bind]
        cases lib.time r.1 <;> simp
      · simp [visitString, hs, Outcome.bind]

/-- **C52 as stated is false**: `{}_interval_year` and `{5_years}_interval_year` are accepted
by the grammar and read fields that are not there. -/
theorem interval_reads_past_end (lib : Lib) :
    visitConst lib false (some (.scalar .intervalYear .required)) (.mapLit [] [] none) = .ub ∧
    visitConst lib false (some (.scalar .intervalYear .required))
      (.structLit [.number ['5'] (some (.basic "years".toList false []))] none) = .ub := by
  constructor
  · rfl
  · have h2 : collect (visitEach lib true ((i32Types 2).map some)
        [.number ['5'] (some (.basic "years".toList false []))]) =
        .ok ([.atom (.i32 5) false], []) := rfl
    have h3 : collect (visitEach lib true ((i32Types 3).map some)
        [.number ['5'] (some (.basic "years".toList false []))]) =
        .ok ([.atom (.i32 5) false], []) := rfl
    have := (interval_defined lib _ .required _ _ h2 h3).1
    exact Classical.byContradiction fun h => absurd (this.mp h) (by decide)

/-- The grammar accepts these texts. -/
example : (parseLiteral "{}_interval_year".toList).isSome = true ∧
    (parseLiteral "{5_years}_interval_year".toList).isSome = true := by decide +kernel

/-! ## C53: constants are read or reported -/

/-- The types a number can have. -/
def IsNumeric : PbType → Prop
  | .scalar .i8 _ | .scalar .i16 _ | .scalar .i32 _ | .scalar .i64 _ | .scalar .fp32 _
  | .scalar .fp64 _ | .decimal _ _ _ => True
  | _ => False

theorem visitNumber_silent (lib : Lib) (text : Str) (ty : PbType) :
    visitNumber lib text ty = .ok (empty, []) ↔ ¬ IsNumeric ty := by
  have ho : ∀ {α : Type} (f : α → Atom) (b : Bool) (o : Outcome α), (∀ v, f v ≠ .notSet) →
      orNumberError (fun v => .atom (f v) b) o ≠ .ok (empty, []) := by
    intro α f b o hf
    cases o with
    | ok v =>
      simp only [orNumberError, empty, ne_eq, Outcome.ok.injEq, Prod.mk.injEq, PbLit.atom.injEq,
        and_true, not_and]
      exact fun h => absurd h (hf v)
    | throw e => simp [orNumberError]
    | ub => simp [orNumberError]
  unfold visitNumber
  split
  all_goals first
    | (simp only [IsNumeric, not_true, iff_false]; exact ho _ _ _ (by simp))
    | skip
  · simp only [IsNumeric, not_true, iff_false]
    split <;> simp [empty]
  · rename_i h1 h2 h3 h4 h5 h6 h7
    simp only [true_iff]
    cases ty with
    | scalar k n => cases k <;> simp_all [IsNumeric]
    | decimal p s n => exact absurd rfl (h7 p s n)
    | _ => simp [IsNumeric]

theorem notSet_reported (o : PType) (errs : List TypeErr)
    (h : typeToProto false o = .ok (.notSet, errs)) : errs ≠ [] := by
  cases o with
  | lit v a b => simp [typeToProto] at h; rw [← h]; simp
  | pVarchar l n =>
    simp only [typeToProto] at h
    cases l <;> simp only [varcharToProto] at h <;> try contradiction
    split at h
    · split at h <;> simp at h
    · simp at h; rw [← h]; simp
  | pMap k v n =>
    simp only [typeToProto] at h
    split at h
    · simp at h; rw [← h]; simp
    · cases hk : typeToProto false k <;> simp [hk, Outcome.bind] at h
      cases hv : typeToProto false v <;> simp [hv] at h
  | pStruct cs n =>
    simp only [typeToProto] at h
    cases hk : typesToProto false cs <;> simp [hk, Outcome.bind] at h
  | pList e n =>
    simp only [typeToProto] at h
    cases hk : typeToProto false e <;> simp [hk, Outcome.bind] at h
  | pFixedChar l n =>
    simp only [typeToProto] at h
    cases l <;> simp only [fixedCharToProto] at h <;> try contradiction
    split at h <;> simp at h
  | pDecimal p s n =>
    simp only [typeToProto] at h
    cases p <;> simp only [decimalToProto] at h <;> try contradiction
    split at h
    · cases s <;> simp only at h <;> try contradiction
      split at h <;> simp at h
    · simp at h
  | _ => simp [typeToProto] at h

/-- The type read for a constant on its own: not unset unless an error is reported. -/
theorem typeFor_notSet {own : Option TypeTree} {errs : List LitErr}
    (h : typeFor false none own = .ok (some .notSet, errs)) : errs ≠ [] := by
  cases own with
  | none => simp [typeFor] at h
  | some tree =>
    simp only [typeFor, textToTypeProto] at h
    cases hd : decode true tree.text with
    | ok o =>
      rw [hd] at h
      cases ht : typeToProto false o with
      | ok r =>
        obtain ⟨t, es⟩ := r
        simp only [ht, Outcome.map, Outcome.ok.injEq, Prod.mk.injEq, Option.some.injEq] at h
        obtain ⟨rfl, rfl⟩ := h
        simpa using notSet_reported o es ht
      | throw e => simp [ht, Outcome.map] at h
      | ub => simp [ht, Outcome.map] at h
    | throw e => simp [hd, Outcome.map] at h; rw [← h]; simp
    | ub => simp [hd, Outcome.map] at h

theorem after_silent (errs : List LitErr) (o : Outcome Read) :
    after errs o = .ok (empty, []) ↔ errs = [] ∧ o = .ok (empty, []) := by
  cases o with
  | ok r =>
    obtain ⟨l, es⟩ := r
    simp only [after, Outcome.map, Outcome.ok.injEq, Prod.mk.injEq, List.append_eq_nil_iff]
    exact ⟨fun ⟨a, b, c⟩ => ⟨b, a, c⟩, fun ⟨a, b, c⟩ => ⟨b, a, c⟩⟩
  | throw e => simp [after, Outcome.map]
  | ub => simp [after, Outcome.map]

/-- A string is read or reported, unless the type is not set. -/
theorem typedString_silent (lib : Lib) (text : Str) (ty : PbType)
    (h : typedString lib text ty = .ok (empty, [])) : ty = .notSet := by
  cases hs : StrLit.stringText text with
  | ub =>
    unfold typedString at h
    split at h <;> simp [visitTimestamp, visitTimestampTz, visitDate, visitTime, visitString,
      plainString, hs, Outcome.bind] at h
  | throw e =>
    unfold typedString at h
    split at h <;> simp [visitTimestamp, visitTimestampTz, visitDate, visitTime, visitString,
      plainString, hs, Outcome.bind] at h
  | ok r =>
    unfold typedString at h
    split at h
    · simp only [visitTimestamp, plainString, hs, Outcome.bind] at h
      cases hx : lib.timestamp r.1 <;> simp [hx, empty] at h
    · simp only [visitTimestampTz, plainString, hs, Outcome.bind] at h
      rcases hx : lib.timestampTz r.1 with _ | _ | _ <;> simp [hx, empty] at h
    · simp only [visitDate, plainString, hs, Outcome.bind] at h
      cases hx : Date.parseDate r.1 <;> simp [hx, empty] at h
    · simp only [visitTime, plainString, hs, Outcome.bind] at h
      cases hx : lib.time r.1 <;> simp [hx, empty] at h
    · simp only [visitString, hs, Outcome.bind, Outcome.ok.injEq, Prod.mk.injEq,
        List.append_eq_nil_iff] at h
      obtain ⟨h1, _, h2⟩ := h
      unfold stringLiteral at h1 h2
      split at h1 <;> simp_all [empty]

/-- **C53, exact behaviour.**  A constant on its own is neither read nor reported exactly if it
is a number with a type that is not the type of a number. -/
theorem constant_silent_iff (lib : Lib) (c : ConstTree)
    (hwf : ∀ items own, c = .structLit items own → items ≠ []) :
    visitConst lib false none c = .ok (empty, []) ↔
      ∃ text tree ty, c = .number text (some tree) ∧
        textToTypeProto false tree.text = .ok (ty, []) ∧ ¬ IsNumeric ty := by
  cases c with
  | number text own =>
    rw [visitConst]
    cases own with
    | none => simp [typeFor, Outcome.bind]
    | some tree =>
      simp only [typeFor]
      cases ht : textToTypeProto false tree.text with
      | ok r =>
        obtain ⟨ty, errs⟩ := r
        simp only [Outcome.map, Outcome.bind, after_silent, visitNumber_silent, List.map_eq_nil_iff]
        constructor
        · rintro ⟨rfl, h⟩
          exact ⟨text, tree, ty, rfl, ht, h⟩
        · rintro ⟨_, _, ty', he, ht', h⟩
          simp only [ConstTree.number.injEq, Option.some.injEq] at he
          obtain ⟨rfl, rfl⟩ := he
          rw [ht] at ht'
          simp only [Outcome.ok.injEq, Prod.mk.injEq] at ht'
          obtain ⟨rfl, rfl⟩ := ht'
          exact ⟨rfl, h⟩
      | throw e => simp [Outcome.map, Outcome.bind, ht]
      | ub => simp [Outcome.map, Outcome.bind, ht]
  | string text own =>
    refine ⟨fun h => ?_, fun ⟨_, _, _, he, _⟩ => by simp at he⟩
    exfalso
    rw [visitConst] at h
    cases ht : typeFor false none own with
    | ok r =>
      obtain ⟨t, errs⟩ := r
      rw [ht] at h
      simp only [Outcome.bind] at h
      cases t with
      | none =>
        simp only at h
        have := typedString_silent lib text (.scalar .string .unspecified) h
        simp at this
      | some ty =>
        simp only [after_silent] at h
        have := typedString_silent lib text ty h.2
        subst this
        exact typeFor_notSet ht h.1
    | throw e => rw [ht] at h; simp [Outcome.bind] at h
    | ub => rw [ht] at h; simp [Outcome.bind] at h
  | bool b text own =>
    refine ⟨fun h => ?_, fun ⟨_, _, _, he, _⟩ => by simp at he⟩
    exfalso
    rw [visitConst] at h
    cases ht : typeFor false none own with
    | ok r =>
      rw [ht] at h
      simp only [Outcome.bind] at h
      split at h <;> simp [empty] at h
    | throw e => rw [ht] at h; simp [Outcome.bind] at h
    | ub => rw [ht] at h; simp [Outcome.bind] at h
  | null text own =>
    refine ⟨fun h => ?_, fun ⟨_, _, _, he, _⟩ => by simp at he⟩
    exfalso
    rw [visitConst] at h
    cases ht : typeFor false none own with
    | ok r =>
      rw [ht] at h
      simp only [Outcome.bind] at h
      split at h <;> simp [empty] at h
    | throw e => rw [ht] at h; simp [Outcome.bind] at h
    | ub => rw [ht] at h; simp [Outcome.bind] at h
  | structLit items own =>
    refine ⟨fun h => ?_, fun ⟨_, _, _, he, _⟩ => by simp at he⟩
    exfalso
    have hne := hwf items own rfl
    have hlen : 0 < items.length := List.length_pos_iff.mpr hne
    rw [visitConst] at h
    cases ht : typeFor true none own with
    | ok r =>
      rw [ht] at h
      simp only [Outcome.bind] at h
      split at h
      · rename_i types n heq
        rw [after_silent] at h
        obtain ⟨_, h⟩ := h
        simp only [structOf] at h
        cases hc : collect (visitEach lib true (types.map some) items) with
        | ok fs =>
          have hl := collect_length _ _ hc
          rw [visitEach_length, List.length_map] at hl
          rw [hc] at h
          simp only [Outcome.map, Outcome.ok.injEq, Prod.mk.injEq, List.append_eq_nil_iff] at h
          obtain ⟨h1, _, h2⟩ := h
          split at h2
          · rename_i ho
            have : fs.1 ≠ [] := by
              rw [← List.length_pos_iff, hl]; omega
            unfold unlessEmpty at h1
            rw [if_neg (by simpa using this)] at h1
            simp [empty] at h1
          · simp at h2
        | throw e => rw [hc] at h; simp [Outcome.map] at h
        | ub => rw [hc] at h; simp [Outcome.map] at h
      · rename_i e n heq
        rw [after_silent] at h
        obtain ⟨_, h⟩ := h
        cases hc : collect (visitEach lib true (List.replicate items.length (some e)) items) with
        | ok fs =>
          have hl := collect_length _ _ hc
          rw [visitEach_length, List.length_replicate] at hl
          rw [hc] at h
          simp only [Outcome.map, Outcome.ok.injEq, Prod.mk.injEq] at h
          have : fs.1 ≠ [] := by
            rw [← List.length_pos_iff, hl]; omega
          unfold unlessEmpty at h
          rw [if_neg (by simpa using this)] at h
          simp [empty] at h
        | throw e => rw [hc] at h; simp [Outcome.map] at h
        | ub => rw [hc] at h; simp [Outcome.map] at h
      · simp [empty] at h
      · cases hc : structOf 2 items.length (visitEach lib true ((i32Types 2).map some) items) with
        | ok fs =>
          rw [hc] at h
          simp only [intervalYear] at h
          cases h0 : fieldI32 fs.1 0 <;> cases h1 : fieldI32 fs.1 1 <;>
            simp [h0, h1, Outcome.bind, Outcome.map, empty] at h
        | throw e => rw [hc] at h; simp at h
        | ub => rw [hc] at h; simp at h
      · cases hc : structOf 3 items.length (visitEach lib true ((i32Types 3).map some) items) with
        | ok fs =>
          rw [hc] at h
          simp only [intervalDay] at h
          cases h0 : fieldI32 fs.1 0 <;> cases h1 : fieldI32 fs.1 1 <;>
            cases h2 : fieldI32 fs.1 2 <;>
            simp [h0, h1, h2, Outcome.bind, Outcome.map, empty] at h
        | throw e => rw [hc] at h; simp at h
        | ub => rw [hc] at h; simp at h
      · simp at h
      · simp at h
    | throw e => rw [ht] at h; simp [Outcome.bind] at h
    | ub => rw [ht] at h; simp [Outcome.bind] at h
  | mapLit keys values own =>
    refine ⟨fun h => ?_, fun ⟨_, _, _, he, _⟩ => by simp at he⟩
    exfalso
    rw [visitConst] at h
    cases ht : typeFor false none own with
    | ok r =>
      rw [ht] at h
      simp only [Outcome.bind] at h
      split at h
      · simp [empty] at h
      · cases hc : collect (interleave
            (visitEach lib false (List.replicate keys.length none) keys)
            (visitEach lib false (List.replicate values.length none) values)) with
        | ok fs => rw [hc] at h; simp [Outcome.map, empty] at h
        | throw e => rw [hc] at h; simp [Outcome.map] at h
        | ub => rw [hc] at h; simp [Outcome.map] at h
      · rename_i k v n heq
        split at h
        · simp [empty] at h
        · cases hc : collect (interleave
              (visitEach lib false (List.replicate keys.length (some k)) keys)
              (visitEach lib false (List.replicate values.length (some v)) values)) with
          | ok fs => rw [hc] at h; simp [Outcome.map, empty] at h
          | throw e => rw [hc] at h; simp [Outcome.map] at h
          | ub => rw [hc] at h; simp [Outcome.map] at h
      · simp [intervalYear, fieldI32, Outcome.bind, Outcome.map] at h
      · simp [intervalDay, fieldI32, Outcome.bind, Outcome.map] at h
      · simp at h
      · simp at h
    | throw e => rw [ht] at h; simp [Outcome.bind] at h
    | ub => rw [ht] at h; simp [Outcome.bind] at h

/-- **C53 as stated is false**: `5_string` is dropped without an error. -/
theorem number_silently_dropped (lib : Lib) :
    visitConst lib false none (.number ['5'] (some (.basic "string".toList false []))) =
      .ok (empty, []) := by
  rw [constant_silent_iff lib _ (by intro _ _ h; simp at h)]
  refine ⟨_, _, .scalar .string .required, rfl, ?_, by simp [IsNumeric]⟩
  rw [res_text (res_basic false false (numbers := []) (by decide) (by decide) (by simp))]
  simp only [basicOut]
  rw [show simpleType "string".toList = some .string by decide]
  rfl

/-- **C53, the part of the property that holds** (`_partial`: numbers with other types are
missing; see `number_silently_dropped`). -/
theorem constant_reported_partial (lib : Lib) (c : ConstTree)
    (hwf : ∀ items own, c = .structLit items own → items ≠ [])
    (hnum : ∀ text tree ty errs, c = .number text (some tree) →
      textToTypeProto false tree.text = .ok (ty, errs) → IsNumeric ty) (l : PbLit)
    (h : visitConst lib false none c = .ok (l, [])) : l ≠ empty := by
  rintro rfl
  obtain ⟨text, tree, ty, he, ht, hn⟩ := (constant_silent_iff lib c hwf).mp h
  exact hn (hnum text tree ty [] he ht)

/-- **C53 for structs.**  A struct that is read without an error has one value for each field
of its type, neither more nor less. -/
theorem struct_complete (lib : Lib) (inside : Bool) (ext : Option PbType) (items : List ConstTree)
    (own : Option Tree.TypeTree) (types : List PbType) (n : Nullability) (l : PbLit)
    (hne : items ≠ []) (ht : typeFor true ext own = .ok (some (.struct types n), []))
    (h : visitConst lib inside ext (.structLit items own) = .ok (l, [])) :
    items.length = types.length ∧ ∃ fields, l = .struct fields false ∧
      fields.length = types.length := by
  simp only [visitConst, ht, Outcome.bind, after, structOf] at h
  cases hc : collect (visitEach lib true (types.map some) items) with
  | ok r =>
    simp only [hc, Outcome.map, Outcome.ok.injEq, Prod.mk.injEq, List.nil_append] at h
    obtain ⟨h1, h2⟩ := h
    have hl : items.length = types.length := by
      have := List.append_eq_nil_iff.mp h2
      by_cases hi : items.length = 0 ∨ items.length = types.length
      · rcases hi with hi | hi
        · exact absurd (List.eq_nil_of_length_eq_zero hi) hne
        · exact hi
      · rw [if_neg hi] at this; simp at this
    have hf := collect_length _ r hc
    rw [visitEach_length lib true, List.length_map, hl, Nat.min_self] at hf
    refine ⟨hl, r.1, ?_, hf⟩
    rw [← h1, unlessEmpty, if_neg]
    intro he
    rw [List.isEmpty_iff] at he
    rw [he] at hf
    simp at hf
    cases items with
    | nil => exact hne rfl
    | cons => simp [← hf] at hl
  | throw e => simp [hc, Outcome.map] at h
  | ub => simp [hc, Outcome.map] at h

/-- Non-vacuity: a struct of one boolean. -/
example (lib : Lib) : visitConst lib false (some (.struct [.scalar .bool .required] .required))
    (.structLit [.bool true "true".toList none] none) =
      .ok (.struct [.atom (.boolean true) false] false, []) := rfl

/-- Non-vacuity of C53: a number with the type of a number. -/
example (lib : Lib) :
    visitConst lib false none (.number ['5'] (some (.basic "i8".toList false []))) =
      .ok (.atom (.i8 5) false, []) := by
  rw [visit_number lib _ false (by decide) (by decide) (by simp)
    (t := .scalar .i8 .required) (errs := []) (by
      simp only [basicOut]
      rw [show simpleType "i8".toList = some .i8 by decide]
      rfl)]
  rfl

end Verif.Literal
