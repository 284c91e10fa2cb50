import Verif.Lemmas.TypeMatch
import Verif.Lemmas.TypeSplit

/-!
# Properties of type matching and signatures (C05 - C09)
-/

namespace Verif.Ty

open Verif

/-! ## C07: concrete matching -/

/-- **C07, exact behaviour.**  Matching two concrete types always returns, and returns true
exactly when the declared type, with the nullability of structs forgotten, accepts the
actual type, with the nullability of structs forgotten. -/
theorem match_concrete (a b : CType) :
    ∃ r, isMatch a.obj b.obj = .ok r ∧ (r = true ↔ Accepts a.forgetStruct b.forgetStruct) :=
  ⟨cMatch a b, isMatch_obj a b, cMatch_iff a b⟩

theorem match_concrete_iff (a b : CType) :
    isMatch a.obj b.obj = .ok true ↔ Accepts a.forgetStruct b.forgetStruct := by
  obtain ⟨r, h, hr⟩ := match_concrete a b
  rw [h, ← hr]; simp

/-- **C07, the part that holds** (`_partial`: without the hypothesis that no struct is
nullable the statement is false, see `match_accepts_full_fails`). -/
theorem match_accepts_partial (a b : CType) (ha : a.noNullStruct = true)
    (hb : b.noNullStruct = true) : isMatch a.obj b.obj = .ok true ↔ Accepts a b := by
  rw [match_concrete_iff, forgetStruct_of_noNull a ha, forgetStruct_of_noNull b hb]

/-- **C07, one direction without restriction**: whatever should be accepted is accepted. -/
theorem match_of_accepts (a b : CType) (h : Accepts a b) : isMatch a.obj b.obj = .ok true := by
  rw [match_concrete_iff]
  exact accepts_forget a b h

/-- **C07 as stated is false**: a required struct accepts a nullable struct. -/
theorem match_accepts_full_fails :
    ¬ ∀ a b : CType, isMatch a.obj b.obj = .ok true ↔ Accepts a b := by
  intro h
  have := (h (.struct [.scalar .i32 false] false) (.struct [.scalar .i32 false] true)).mp rfl
  simp [Accepts, CType.flags, FlagsLe] at this

/-- **C07, transitivity** (all concrete types). -/
theorem match_trans (a b c : CType) (h1 : isMatch a.obj b.obj = .ok true)
    (h2 : isMatch b.obj c.obj = .ok true) : isMatch a.obj c.obj = .ok true := by
  rw [match_concrete_iff] at *
  exact ⟨h1.1.trans h2.1, flagsLe_trans h1.2 h2.2⟩

/-- **C07, antisymmetry** up to the nullability of structs. -/
theorem match_antisymm_partial (a b : CType) (h1 : isMatch a.obj b.obj = .ok true)
    (h2 : isMatch b.obj a.obj = .ok true) : a.forgetStruct = b.forgetStruct := by
  rw [match_concrete_iff] at *
  exact eq_of_erase_flags _ _ h1.1 (flagsLe_antisymm h1.2 h2.2)

/-- **C07, antisymmetry** for types without nullable structs. -/
theorem match_antisymm_noNullStruct (a b : CType) (ha : a.noNullStruct = true)
    (hb : b.noNullStruct = true) (h1 : isMatch a.obj b.obj = .ok true)
    (h2 : isMatch b.obj a.obj = .ok true) : a = b := by
  have := match_antisymm_partial a b h1 h2
  rwa [forgetStruct_of_noNull a ha, forgetStruct_of_noNull b hb] at this

/-- Non-vacuity of C07: nested types, accepted in one direction only. -/
example : isMatch (CType.map (.varchar 3 true) (.struct [.scalar .i8 true] false) true).obj
      (CType.map (.varchar 3 false) (.struct [.scalar .i8 true] false) false).obj = .ok true ∧
    isMatch (CType.map (.varchar 3 false) (.struct [.scalar .i8 true] false) false).obj
      (CType.map (.varchar 3 true) (.struct [.scalar .i8 true] false) true).obj = .ok false :=
  ⟨rfl, rfl⟩

/-! ## C05: reflexivity -/

/-- **C05.**  Every concrete type matches itself. -/
theorem match_refl (t : CType) : isMatch t.obj t.obj = .ok true := by
  rw [match_concrete_iff]; exact ⟨rfl, flagsLe_refl _⟩

/-- **C05, decoding in concrete mode twice.**  The two results of decoding the text of a
type match each other. -/
theorem match_decoded_twice (t : CType) (h : t.spellable = true) (hn : t.noNullInNull = true) :
    ∃ x y, decode false t.text = .ok x ∧ decode false t.text = .ok y ∧
      isMatch x y = .ok true :=
  ⟨t.obj, t.obj, by rw [decode_text_aux t h, if_pos hn], by rw [decode_text_aux t h, if_pos hn],
    match_refl t⟩

/-- **C05, declarations: false.**  In the default (parameterised) mode `list<i32>` decodes to
an object that does not match itself. -/
theorem match_refl_decl_fails : ∃ t, decode true "list<i32>".toList = .ok t ∧
    isMatch t t = .ok false :=
  ⟨.pList (.scalar .i32 false) false, rfl, rfl⟩

/-- **C05, declarations, exact.**  A declaration decoded in the default mode matches itself
iff it is a simple type, a bare symbol, or `fixedbinary` with a symbolic or numeric length. -/
theorem match_refl_decl_iff (s : Str) (d : PType) (h : decode true s = .ok d) :
    isMatch d d = .ok true ↔ (∃ k n, d = .scalar k n) ∨ (∃ v w p, d = .lit v w p) ∨
      ∃ v w p n, d = .pFixedBinary (.lit v w p) n := by
  rcases decode_param_cases h with rfl | ⟨base, n, ps, hb, _⟩
  · rcases decodeSimple_cases (StringUtils.trim s) with ⟨k, n, e⟩ | ⟨v, w, p, e⟩
    · rw [e]; cases n <;> simp [isMatch, baseMatch, PType.kind, nullMatch, PType.nullable]
    · rw [e]; cases w <;> simp [isMatch]
  · rcases decodeByName_param_shape hb with ⟨e, _, rfl⟩ | rfl | ⟨k, v, _, _, rfl⟩ |
      ⟨a, b, rfl⟩ | ⟨a, rfl⟩ | ⟨a, rfl⟩ | ⟨a, rfl⟩
    case inr.inr.inr.inr.inr.inr =>
      rcases castLit_cases a with e | ⟨v, w, p, e⟩
      · rw [e]; simp [isMatch, Outcome.andThen]
      · rw [e]
        cases w <;> cases n <;> simp [isMatch, Outcome.andThen, nullMatch, PType.nullable]
    all_goals simp [isMatch]

/-- Non-vacuity of C05. -/
example : isMatch (CType.struct [.scalar .i32 true, .list (.decimal 5 2 false) true] true).obj
    (CType.struct [.scalar .i32 true, .list (.decimal 5 2 false) true] true).obj = .ok true := rfl

/-! ## C06: nullable arguments -/

/-- **C06, every declared object** (`_partial`: the declared component must not be a concrete
`Struct` object; for those the property is false, see `match_nullable_struct_fails`).  If a
declared type accepts a concrete type, then at every position the declared component is a
symbol, or is nullable, or the actual component is not nullable. -/
theorem match_nullable_partial (d : PType) (c : CType) (h : isMatch d c.obj = .ok true)
    (path : List Nat) (d' : PType) (c' : CType) (hd : d.at path = some d')
    (hc : c.at path = some c') (hl : d'.isLit = false) (hs : d'.isConcreteStruct = false)
    (hn : c'.nullable = true) : d'.nullable = some true := by
  induction path generalizing d c with
  | nil =>
    simp only [PType.at, CType.at, Option.some.injEq] at hd hc
    subst hd; subst hc
    exact isMatch_nullable h hl hs hn
  | cons i path ih =>
    simp only [PType.at, CType.at, Option.bind_eq_some_iff] at hd hc
    obtain ⟨d1, hd1, hd⟩ := hd
    obtain ⟨c1, hc1, hc⟩ := hc
    exact ih d1 c1 (isMatch_child h hd1 hc1) hd hc

/-- **C06 for extension declarations** (any text decoded in the default mode): the property
holds without exception, at every nested position. -/
theorem match_nullable_decl (s : Str) (d : PType) (hdec : decode true s = .ok d) (c : CType)
    (h : isMatch d c.obj = .ok true) (path : List Nat) (d' : PType) (c' : CType)
    (hd : d.at path = some d') (hc : c.at path = some c') (hl : d'.isLit = false)
    (hn : c'.nullable = true) : d'.nullable = some true :=
  match_nullable_partial d c h path d' c' hd hc hl
    (decode_param_noStruct (s.length + 1) s d (by omega) hdec path d' hd) hn

/-- **C06 as stated is false** for hand-built or concretely decoded structs. -/
theorem match_nullable_struct_fails :
    isMatch (CType.struct [.scalar .i32 false] false).obj
      (CType.struct [.scalar .i32 false] true).obj = .ok true := rfl

/-- Non-vacuity of C06: a declaration with a nullable part that accepts a nullable part. -/
example : ∃ d, decode true "struct<i32?,list<any1>>".toList = .ok d ∧
    isMatch d (CType.struct [.scalar .i32 true, .list (.scalar .i8 true) false] false).obj
      = .ok true ∧ d.at [0] = some (.scalar .i32 true) :=
  ⟨_, rfl, rfl, rfl⟩

/-! ## C08: parameterised declarations -/

/-- **C08, decoding gives declarations.**  A text decoded in the default mode, if every `map`
in it has both parameters, is a declaration in the sense of the specification. -/
theorem decode_decl (s : Str) (d : PType) (h : decode true s = .ok d)
    (hm : d.mapsComplete = true) : d.isDecl = true :=
  decode_isDecl (s.length + 1) s d (by omega) h hm

/-- **C08, soundness.**  Matching a declaration against a concrete type always returns, and
accepts only what the specification accepts. -/
theorem match_decl_sound (d : PType) (c : CType) (h : d.isDecl = true) :
    ∃ r, isMatch d c.obj = .ok r ∧ (r = true → DeclAccepts d c) :=
  ⟨dMatch d c, isMatch_decl d c h, dMatch_sound d c⟩

/-- **C08, the part that holds** (`_partial`: declarations that mention `fixedbinary` are
excluded; for them the property is false, see `match_fixedBinary_never`). -/
theorem match_decl_partial (d : PType) (c : CType) (h : d.isDecl = true)
    (hf : d.usesFixedBinary = false) : isMatch d c.obj = .ok true ↔ DeclAccepts d c := by
  rw [isMatch_decl d c h]
  constructor
  · intro e; exact dMatch_sound d c (by simpa using e)
  · intro e; rw [dMatch_complete d c hf e]

/-- **C08 is false for `fixedbinary`**: the declaration accepts no concrete type at all. -/
theorem match_fixedBinary_never (l : PType) (n : Bool) (c : CType) :
    isMatch (.pFixedBinary l n) c.obj = .ok false := by
  cases c <;> rfl

/-- **C08, wildcard.**  `any...` accepts every type. -/
theorem match_wildcard (raw : Str) (c : CType)
    (h : "any".toList.isPrefixOf (raw.map toLower) = true) :
    isMatch (decodeSimple raw) c.obj = .ok true := by
  unfold decodeSimple
  dsimp only
  have key : ∀ base : Str, "any".toList.isPrefixOf base = true → scalarOfName base = none := by
    intro base hb
    have hp : "any".toList <+: base := List.isPrefixOf_iff_prefix.mp hb
    unfold scalarOfName
    rw [Option.map_eq_none_iff, List.find?_eq_none]
    intro x hx e
    have e' : x.1 = base := by simpa using e
    rw [← e'] at hp
    have : ∀ y ∈ scalarTable, ¬ ("any".toList.isPrefixOf y.1 = true) := by decide
    exact this x hx (List.isPrefixOf_iff_prefix.mpr hp)
  have hbase : "any".toList.isPrefixOf
      (if (raw.map toLower).getLast? = some '?' then (raw.map toLower).dropLast
        else raw.map toLower) = true := by
    split
    · rename_i hq
      obtain ⟨t, ht⟩ := List.isPrefixOf_iff_prefix.mp h
      rw [← ht] at hq ⊢
      have : t ≠ [] := by
        intro e; subst e; simp at hq
      rw [List.dropLast_append_of_ne_nil this]
      exact List.isPrefixOf_iff_prefix.mpr ⟨t.dropLast, rfl⟩
    · exact h
  rw [key _ hbase, hbase]
  rfl

/-- **C08, placeholder.**  A bare symbol that is not a wildcard accepts no concrete type. -/
theorem match_placeholder (v : Str) (p : Bool) (c : CType) :
    isMatch (.lit v false p) c.obj = .ok false := by
  cases c <;> rfl

/-- Non-vacuity of C08: a nested symbolic declaration and an instance of it. -/
example : ∃ d, decode true "map<varchar<L1>,struct<decimal?<P,S>,any>>".toList = .ok d ∧
    d.isDecl = true ∧ d.usesFixedBinary = false ∧
    isMatch d (CType.map (.varchar 7 false)
      (.struct [.decimal 38 3 true, .list (.scalar .i8 true) true] false) false).obj = .ok true :=
  ⟨_, rfl, rfl, rfl, rfl⟩

/-! ## C09: signatures -/

/-- **C09.**  Every concrete type has a signature, and two concrete types have the same
signature iff they are equal up to nullability. -/
theorem signature_iff (a b : CType) :
    ∃ x y, signature a.obj = .ok x ∧ signature b.obj = .ok y ∧ (x = y ↔ a.erase = b.erase) :=
  ⟨a.sig, b.sig, signature_obj a, signature_obj b, sig_inj a b, fun h => by
    rw [← sig_erase a, h, sig_erase]⟩

/-- Non-vacuity of C09: two different nested types with similar signatures. -/
example : signature (CType.struct [.list (.scalar .i8 true) false, .decimal 1 12 true] true).obj =
      .ok "struct<list<i8>,dec<1,12>>".toList ∧
    signature (CType.struct [.list (.scalar .i8 false) true, .decimal 11 2 true] true).obj =
      .ok "struct<list<i8>,dec<11,2>>".toList := by
  refine ⟨?_, ?_⟩ <;> decide +kernel

end Verif.Ty
