import Verif.Spec.Enum
import Verif.Spec.TypeProto

/-!
# C36, C49: enumerations
-/

namespace Verif.Enum

open Verif Verif.Parse

/-! ## C49: tables of names -/

/-- **C49.**  For every `int`, the tables are never read outside; a number in range gives its
entry, every other number the placeholder. -/
theorem caseName_eq (names : List Str) (num : Int) (h : TyPb.Int32 num) (hl : names.length < 2 ^ 31) :
    caseName names num =
      .ok (if 0 ≤ num ∧ num < names.length then names.getD num.toNat [] else "unknown".toList) := by
  obtain ⟨h1, h2⟩ := h
  unfold caseName
  by_cases h0 : 0 ≤ num
  · have hm : num % 18446744073709551616 = num := by omega
    rw [hm]
    by_cases hn : num < names.length
    · have hlt : num.toNat < names.length := by omega
      rw [if_neg (by omega), if_pos ⟨h0, hn⟩, List.getElem?_eq_getElem hlt]
      simp [List.getD, List.getElem?_eq_getElem hlt]
    · rw [if_pos (by omega), if_neg (by omega)]
  · rw [if_pos (by omega), if_neg (by omega)]

/-- **C49, the two tables.** -/
theorem caseNames_total (num : Int) (h : TyPb.Int32 num) :
    (∃ s, planRelTypeCaseName num = .ok s ∧ (s ≠ "unknown".toList ↔ 1 ≤ num ∧ num ≤ 2)) ∧
    (∃ s, relTypeCaseName num = .ok s ∧ (s ≠ "unknown".toList ↔ 1 ≤ num ∧ num ≤ 14)) := by
  constructor
  · refine ⟨_, caseName_eq planRelCaseNames num h (by decide), ?_⟩
    by_cases hn : 0 ≤ num ∧ num < planRelCaseNames.length
    · rw [if_pos hn]
      have key : ∀ k : Fin 3, (planRelCaseNames.getD k.val [] ≠ "unknown".toList ↔
          1 ≤ k.val ∧ k.val ≤ 2) := by decide
      have hk : num.toNat < 3 := by
        have : planRelCaseNames.length = 3 := rfl
        omega
      have := key ⟨num.toNat, hk⟩
      simp only at this
      rw [this]; omega
    · rw [if_neg hn]
      have : planRelCaseNames.length = 3 := rfl
      simp; omega
  · refine ⟨_, caseName_eq relCaseNames num h (by decide), ?_⟩
    by_cases hn : 0 ≤ num ∧ num < relCaseNames.length
    · rw [if_pos hn]
      have key : ∀ k : Fin 15, (relCaseNames.getD k.val [] ≠ "unknown".toList ↔
          1 ≤ k.val ∧ k.val ≤ 14) := by decide
      have hk : num.toNat < 15 := by
        have : relCaseNames.length = 15 := rfl
        omega
      have := key ⟨num.toNat, hk⟩
      simp only at this
      rw [this]; omega
    · rw [if_neg hn]
      have : relCaseNames.length = 15 := rfl
      simp; omega

/-- Non-vacuity of C49: a name, and a negative number. -/
example : relTypeCaseName 12 = .ok "cross".toList ∧ relTypeCaseName (-1) = .ok "unknown".toList := by
  decide +kernel

/-- **C36, relation types.**  The name printed for a relation is an `id` and is read as the
same relation type; the names of all other numbers are reported as unrecognised. -/
theorem relationType_roundtrip (num : Int) (h : TyPb.Int32 num) :
    ∃ s, relTypeCaseName num = .ok s ∧ (∃ ts, Name s ts) ∧
      (readRelationType s).map RelType.num =
        if (1 ≤ num ∧ num ≤ 8) ∨ num = 12 then some num else none := by
  refine ⟨_, caseName_eq relCaseNames num h (by decide), ?_⟩
  by_cases hn : 0 ≤ num ∧ num < relCaseNames.length
  · rw [if_pos hn]
    have hk : num.toNat < 15 := by
      have : relCaseNames.length = 15 := rfl
      omega
    have hnames : ∀ k : Fin 15, Name (relCaseNames.getD k.val [])
        ((Lex.lex (relCaseNames.getD k.val [])).getD []) := by decide +kernel
    have hread : ∀ k : Fin 15, (readRelationType (relCaseNames.getD k.val [])).map RelType.num =
        if (1 ≤ k.val ∧ k.val ≤ 8) ∨ k.val = 12 then some (k.val : Int) else none := by
      decide +kernel
    refine ⟨⟨_, hnames ⟨num.toNat, hk⟩⟩, ?_⟩
    have := hread ⟨num.toNat, hk⟩
    simp only at this
    rw [this]
    by_cases hc : (1 ≤ num ∧ num ≤ 8) ∨ num = 12
    · rw [if_pos hc, if_pos (by omega)]; congr 1; omega
    · rw [if_neg hc, if_neg (by omega)]
  · rw [if_neg hn]
    have : relCaseNames.length = 15 := rfl
    refine ⟨⟨(Lex.lex "unknown".toList).getD [], by decide +kernel⟩, ?_⟩
    rw [if_neg (by omega)]
    decide +kernel

/-! ## C36: spellings the readers accept -/

/-- The reader's normal form is the name exactly for the texts that spell it. -/
theorem normalize_eq_iff (text pre name : Str) (hne : name ≠ [])
    (hp : StringManipulation.startsWith name pre = false) :
    normalize text pre = name ↔ Spells pre name text := by
  show (if StringManipulation.startsWith (letters text) pre then (letters text).drop pre.length
    else letters text) = name ↔ letters text = name ∨ letters text = pre ++ name
  generalize letters text = l
  have hpos : 0 < name.length := List.length_pos_iff.mpr hne
  have happ : StringManipulation.startsWith (pre ++ name) pre = true := by
    unfold StringManipulation.startsWith
    simp [hpos]
  by_cases hs : StringManipulation.startsWith l pre = true
  · rw [if_pos hs]
    have ht : l.take pre.length = pre := by
      unfold StringManipulation.startsWith at hs
      simp only [Bool.and_eq_true, beq_iff_eq] at hs
      exact hs.2
    constructor
    · intro h
      right
      rw [← h]
      conv => lhs; rw [← List.take_append_drop pre.length l, ht]
    · rintro (rfl | rfl)
      · rw [hp] at hs; exact absurd hs (by simp)
      · simp
  · rw [if_neg hs]
    constructor
    · exact fun h => .inl h
    · rintro (rfl | rfl)
      · rfl
      · exact absurd happ hs

theorem nodup_fst (table : List (Str × Int)) (hd : (table.map (·.1)).Nodup) :
    ∀ a b, a ∈ table → b ∈ table → a.1 = b.1 → a = b := by
  induction table with
  | nil => intro a b h; simp at h
  | cons e es ih =>
    intro a b ha hb hab
    rw [List.map_cons, List.nodup_cons] at hd
    rcases List.mem_cons.mp ha with hae | hae <;> rcases List.mem_cons.mp hb with hbe | hbe
    · rw [hae, hbe]
    · exact absurd (List.mem_map.mpr ⟨b, hbe, by rw [← hab, hae]⟩) hd.1
    · exact absurd (List.mem_map.mpr ⟨a, hae, by rw [hab, hbe]⟩) hd.1
    · exact ih hd.2 a b hae hbe hab

/-- The entry found in a table without repetitions. -/
theorem chain_iff (table : List (Str × Int)) (hd : (table.map (·.1)).Nodup) (text : Str)
    (last : ReadEnum) (num : Int) (hl : last.2 = true) :
    chain table text last = (num, false) ↔ (text, num) ∈ table := by
  unfold chain
  constructor
  · intro h
    split at h
    · rename_i e he
      simp only [Prod.mk.injEq, and_true] at h
      have h1 := List.find?_some he
      have h2 := List.mem_of_find?_eq_some he
      simp only [decide_eq_true_eq] at h1
      obtain ⟨a, b⟩ := e
      simp only at h h1
      subst h h1
      exact h2
    · subst h; simp at hl
  · intro h
    cases hf : table.find? fun e => e.1 = text with
    | none =>
      have := List.find?_eq_none.mp hf _ h
      simp at this
    | some e =>
      have h1 := List.find?_some hf
      have h2 := List.mem_of_find?_eq_some hf
      simp only [decide_eq_true_eq] at h1
      have : e = (text, num) := by
        exact nodup_fst table hd _ _ h2 h h1
      subst this
      rfl

/-- Names and prefixes do not get into each other's way. -/
def Separate (pre : Str) (table : List (Str × Int)) : Prop :=
  ∀ e ∈ table, e.1 ≠ [] ∧ StringManipulation.startsWith e.1 pre = false

instance (pre : Str) (table : List (Str × Int)) : Decidable (Separate pre table) :=
  inferInstanceAs (Decidable (∀ e ∈ table, _))

theorem chain_spells (table : List (Str × Int)) (pre text : Str)
    (hd : (table.map (·.1)).Nodup) (hs : Separate pre table) (last : ReadEnum) (num : Int)
    (hl : last.2 = true) :
    chain table (normalize text pre) last = (num, false) ↔
      ∃ name, (name, num) ∈ table ∧ Spells pre name text := by
  rw [chain_iff table hd _ last num hl]
  constructor
  · intro h
    obtain ⟨hne, hp⟩ := hs _ h
    exact ⟨_, h, (normalize_eq_iff text pre _ hne hp).mp rfl⟩
  · rintro ⟨name, h, hsp⟩
    obtain ⟨hne, hp⟩ := hs _ h
    rw [(normalize_eq_iff text pre name hne hp).mpr hsp]
    exact h

/-- **C36, spellings.**  Sort directions, aggregation phases and invocations: a text is read as
an enumerator without an error exactly if it spells the name of the enumerator. -/
theorem spellings (text : Str) (num : Int) :
    (readDirection text = (num, false) ↔
      ∃ name, (name, num) ∈ directionTable ∧ Spells "sortdirection".toList name text) ∧
    (readPhase text = (num, false) ↔
      ∃ name, (name, num) ∈ phaseTable ∧ Spells "aggregationphase".toList name text) ∧
    (readInvocation text = (num, false) ↔
      ∃ name, (name, num) ∈ invocationTable ∧ Spells "aggregationinvocation".toList name text) :=
  ⟨chain_spells _ _ _ (by decide +kernel) (by decide +kernel) _ _ rfl,
   chain_spells _ _ _ (by decide +kernel) (by decide +kernel) _ _ rfl,
   chain_spells _ _ _ (by decide +kernel) (by decide +kernel) _ _ rfl⟩

/-- **C36, spellings of join types**: the same for the seven join types. -/
theorem spellings_join (text : Str) (num : Int) :
    readJoin text = (num, false) ↔
      num ≠ 0 ∧ ∃ name, (name, num) ∈ joinTable ∧ Spells "jointype".toList name text := by
  have hc := chain_spells joinTable "jointype".toList text (by decide +kernel) (by decide +kernel)
    (0, true) num rfl
  have hsame : (chain joinTable (normalize text "jointype".toList) (0, false)).1 =
      (chain joinTable (normalize text "jointype".toList) (0, true)).1 := by
    unfold chain; split <;> rfl
  have hz : (chain joinTable (normalize text "jointype".toList) (0, true)).2 = true →
      (chain joinTable (normalize text "jointype".toList) (0, true)).1 = 0 := by
    unfold chain; split <;> simp
  rw [← hc]
  simp only [readJoin, hsame, Prod.mk.injEq, decide_eq_false_iff_not]
  generalize chain joinTable (normalize text "jointype".toList) (0, true) = r at *
  obtain ⟨a, b⟩ := r
  simp only at *
  constructor
  · rintro ⟨rfl, h⟩
    refine ⟨h, ?_⟩
    cases b
    · rfl
    · exact absurd (hz rfl) h
  · rintro ⟨h, h2⟩
    simp only [Prod.mk.injEq] at h2
    exact ⟨h2.1, h2.1 ▸ h⟩

/-- Non-vacuity: three spellings of one enumerator, and one that is none. -/
example : Spells "jointype".toList "left".toList "Left".toList ∧
    Spells "jointype".toList "left".toList "JOIN_TYPE_LEFT".toList ∧
    Spells "jointype".toList "left".toList "l_e_f_t9".toList ∧
    ¬ Spells "jointype".toList "left".toList "leftish".toList := by decide +kernel

/-! ## C36: what survives -/

/-- The empty text is not a name. -/
theorem not_name_nil (ts : List Lex.Token) : ¬ Name [] ts := by
  intro h
  have h1 := h.lexes
  have h0 : Lex.lex [] = some [] := by decide +kernel
  rw [h0] at h1
  obtain rfl : ts = [] := by simpa using h1.symm
  have := h.parses
  simp [parseId] at this

theorem protoName_out (names : List Str) (num : Int) (h : ¬ (0 ≤ num ∧ num < names.length)) :
    protoName names num = [] := by
  unfold protoName
  by_cases h0 : 0 ≤ num
  · rw [if_pos h0, List.getElem?_eq_none (by omega)]; rfl
  · rw [if_neg h0]

/-- A decision for every number of a range. -/
theorem range_all (n : Nat) (P : Int → Prop) (h : ∀ k : Fin n, P (k.val : Int)) :
    ∀ num : Int, 0 ≤ num → num < n → P num := by
  intro num h0 hn
  have := h ⟨num.toNat, by omega⟩
  simpa [Int.toNat_of_nonneg h0] using this

/-- A sufficient test for `IdReads`. -/
def idReadsTest (read : Str → ReadEnum) (t : Str) (num : Int) : Bool :=
  decide (Name t ((Lex.lex t).getD [])) && decide (read t = (num, false))

theorem idReads_of {read : Str → ReadEnum} {t : Str} {num : Int}
    (h : idReadsTest read t num = true) : IdReads read t num := by
  simp only [idReadsTest, Bool.and_eq_true, decide_eq_true_eq] at h
  exact ⟨⟨_, h.1⟩, h.2⟩

/-- **C36, join types.**  Exactly the seven join types survive. -/
theorem join_survives_iff (num : Int) :
    Survives printJoin (IdReads readJoin) num ↔ 1 ≤ num ∧ num ≤ 7 := by
  constructor
  · rintro ⟨t, hp, ⟨ts, hn⟩, hr⟩
    simp only [printJoin, Printed.text.injEq] at hp
    subst hp
    by_cases h : 0 ≤ num ∧ num < joinNames.length
    · have : joinNames.length = 8 := rfl
      have : num ≠ 0 := ((spellings_join _ _).mp hr).1
      omega
    · rw [protoName_out _ _ h] at hn
      exact absurd hn (not_name_nil ts)
  · intro h
    refine ⟨_, rfl, idReads_of ?_⟩
    have := range_all 8 (fun num => 1 ≤ num → idReadsTest readJoin (protoName joinNames num) num = true)
      (by decide +kernel) num (by omega) (by omega)
    exact this h.1

/-- **C36, aggregation phases.**  All five survive. -/
theorem phase_survives_iff (num : Int) :
    Survives printPhase (IdReads readPhase) num ↔ 0 ≤ num ∧ num ≤ 4 := by
  constructor
  · rintro ⟨t, hp, ⟨ts, hn⟩, hr⟩
    simp only [printPhase, Printed.text.injEq] at hp
    subst hp
    by_cases h : 0 ≤ num ∧ num < phaseNames.length
    · have : phaseNames.length = 5 := rfl
      omega
    · rw [protoName_out _ _ h] at hn
      exact absurd hn (not_name_nil ts)
  · intro h
    exact ⟨_, rfl, idReads_of (range_all 5
      (fun num => idReadsTest readPhase (protoName phaseNames num) num = true)
      (by decide +kernel) num (by omega) (by omega))⟩

/-- **C36, sort directions.**  The five directions survive. -/
theorem direction_survives_iff (num : Int) :
    Survives printDirection (IdReads readDirection) num ↔ 1 ≤ num ∧ num ≤ 5 := by
  constructor
  · rintro ⟨t, hp, -⟩
    unfold printDirection at hp
    (repeat' split at hp) <;> first | omega | cases hp
  · intro h
    have : num = 1 ∨ num = 2 ∨ num = 3 ∨ num = 4 ∨ num = 5 := by omega
    rcases this with rfl | rfl | rfl | rfl | rfl <;>
      exact ⟨_, rfl, idReads_of (by decide +kernel)⟩

/-- **C36, aggregation invocations.**  The two invocations survive; the unspecified one is not
printed and stays unspecified. -/
theorem invocation_survives_iff (num : Int) :
    (printInvocation num = .nothing ↔ num = 0) ∧
    (Survives printInvocation (IdReads readInvocation) num ↔ num = 1 ∨ num = 2) := by
  constructor
  · unfold printInvocation
    constructor
    · intro h
      (repeat' split at h) <;> first | assumption | cases h
    · rintro rfl; rfl
  · constructor
    · rintro ⟨t, hp, -, hr⟩
      unfold printInvocation at hp
      (repeat' split at hp) <;> first | omega | cases hp
      have h0 : readInvocation "unspecified".toList = (0, false) := by decide +kernel
      rw [h0] at hr
      simp only [Prod.mk.injEq, and_true] at hr
      omega
    · rintro (rfl | rfl)
      · exact ⟨_, rfl, idReads_of (by decide +kernel)⟩
      · exact ⟨_, rfl, idReads_of (by decide +kernel)⟩

/-- **C36, comparison operators.** -/
theorem comparison_survives_iff (num : Int) :
    Survives printComparison (TokenReads fun tok => readComparison tok.text) num ↔
      1 ≤ num ∧ num ≤ 6 := by
  constructor
  · rintro ⟨t, hp, -⟩
    unfold printComparison at hp
    (repeat' split at hp) <;> first | omega | cases hp
  · intro h
    have : num = 1 ∨ num = 2 ∨ num = 3 ∨ num = 4 ∨ num = 5 ∨ num = 6 := by omega
    rcases this with rfl | rfl | rfl | rfl | rfl | rfl
    · exact ⟨_, rfl, ⟨.comparison, "EQ".toList⟩, by decide +kernel, by decide +kernel⟩
    · exact ⟨_, rfl, ⟨.comparison, "NE".toList⟩, by decide +kernel, by decide +kernel⟩
    · exact ⟨_, rfl, ⟨.comparison, "LT".toList⟩, by decide +kernel, by decide +kernel⟩
    · exact ⟨_, rfl, ⟨.comparison, "GT".toList⟩, by decide +kernel, by decide +kernel⟩
    · exact ⟨_, rfl, ⟨.comparison, "LE".toList⟩, by decide +kernel, by decide +kernel⟩
    · exact ⟨_, rfl, ⟨.comparison, "GE".toList⟩, by decide +kernel, by decide +kernel⟩

/-- **C36, reductions of set comparisons.** -/
theorem reduction_survives_iff (num : Int) :
    Survives printReduction (TokenReads fun tok => readReduction tok.kind) num ↔
      num = 1 ∨ num = 2 := by
  constructor
  · rintro ⟨t, hp, -⟩
    unfold printReduction at hp
    (repeat' split at hp) <;> first | omega | cases hp
  · rintro (rfl | rfl)
    · exact ⟨_, rfl, ⟨.any, "ANY".toList⟩, by decide +kernel, by decide +kernel⟩
    · exact ⟨_, rfl, ⟨.all, "ALL".toList⟩, by decide +kernel, by decide +kernel⟩

/-- **C36, set predicates.** -/
theorem predicate_survives_iff (num : Int) :
    Survives printPredicate (TokenReads fun tok => (readPredicate tok.kind).1) num ↔
      num = 1 ∨ num = 2 := by
  constructor
  · rintro ⟨t, hp, -⟩
    unfold printPredicate at hp
    (repeat' split at hp) <;> first | omega | cases hp
  · rintro (rfl | rfl)
    · exact ⟨_, rfl, ⟨.exists, "EXISTS".toList⟩, by decide +kernel, by decide +kernel⟩
    · exact ⟨_, rfl, ⟨.unique, "UNIQUE".toList⟩, by decide +kernel, by decide +kernel⟩

/-! ## C36: what does not -/

/-- **C36 is violated** by an unspecified join type: it is printed, and its text is refused. -/
theorem join_unspecified_refused :
    printJoin 0 = .text "JOIN_TYPE_UNSPECIFIED".toList ∧
    readJoin "JOIN_TYPE_UNSPECIFIED".toList = (0, true) := by decide +kernel

/-- **C36 is violated** by an unspecified sort direction: nothing is printed, and no error is
reported. -/
theorem direction_unspecified_lost : printDirection 0 = .nothing := rfl

/-- **C36 is violated** by unknown numbers of aggregation invocations: another enumerator is
printed, and no error is reported. -/
theorem invocation_unknown_changed (num : Int) (h : num < 0 ∨ 2 < num) :
    ∃ t, printInvocation num = .text t ∧ readInvocation t = (0, false) := by
  refine ⟨"unspecified".toList, ?_, by decide +kernel⟩
  unfold printInvocation
  rw [if_neg (by omega), if_neg (by omega), if_neg (by omega)]

/-- **C36 is violated** by unknown numbers of join types and phases: the text printed is empty,
and no error is reported. -/
theorem unknown_printed_empty (num : Int) (h : num < 0 ∨ 7 < num) :
    printJoin num = .text [] ∧ printPhase num = .text [] := by
  have h1 : joinNames.length = 8 := rfl
  have h2 : phaseNames.length = 5 := rfl
  constructor
  · rw [printJoin, protoName_out _ _ (by omega)]
  · rw [printPhase, protoName_out _ _ (by omega)]

/-- **C36 is violated** by unknown numbers of the operators of subqueries: nothing is printed,
and no error is reported. -/
theorem unknown_operator_lost (num : Int) (h : num < 0 ∨ 6 < num) (hs : isSentinel num = false) :
    printComparison num = .nothing ∧ printReduction num = .nothing ∧
    printPredicate num = .nothing := by
  have e1 : num ≠ 1 := by omega
  have e2 : num ≠ 2 := by omega
  have e3 : num ≠ 3 := by omega
  have e4 : num ≠ 4 := by omega
  have e5 : num ≠ 5 := by omega
  have e6 : num ≠ 6 := by omega
  have e0 : num ≠ 0 := by omega
  simp [printComparison, printReduction, printPredicate, *]

/-- Non-vacuity: a number that is unknown everywhere. -/
example : (8 : Int) < 0 ∨ 6 < (8 : Int) := by decide

end Verif.Enum
