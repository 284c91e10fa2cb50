import Verif.Prop.Literal

/-!
# C54: constants are read as what is written
-/

namespace Verif.Literal

open Verif Parse Tree TyPb

/-! ## Vocabulary -/

/-- Two lists match element by element. -/
def Each {α β : Type} (r : α → β → Prop) : List α → List β → Prop
  | [], [] => True
  | a :: as, b :: bs => r a b ∧ Each r as bs
  | _, _ => False

/-- The type without its own nullability. -/
def bare : PbType → PbType
  | .notSet => .notSet
  | .other => .other
  | .scalar k _ => .scalar k .unspecified
  | .fixedChar l _ => .fixedChar l .unspecified
  | .varchar l _ => .varchar l .unspecified
  | .fixedBinary l _ => .fixedBinary l .unspecified
  | .decimal p s _ => .decimal p s .unspecified
  | .struct ts _ => .struct ts .unspecified
  | .list e _ => .list e .unspecified
  | .map k v _ => .map k v .unspecified

/-- The nullability of a type, of the kinds that have one. -/
def ownNull : PbType → Option Nullability
  | .notSet | .other => none
  | .scalar _ n | .fixedChar _ n | .varchar _ n | .fixedBinary _ n | .decimal _ _ n | .struct _ n
  | .list _ n | .map _ _ n => some n

/-! ## Helpers -/

/-- A value that is read without errors. -/
def fine (l : PbLit) : Outcome Read := .ok (l, [])

theorem collect_fine : ∀ (os : List (Outcome Read)) (ls : List PbLit),
    collect os = .ok (ls, []) ↔ os = ls.map fine
  | [], ls => by cases ls <;> simp [collect]
  | o :: os, ls => by
    have ih := collect_fine os
    cases o with
    | ok a =>
      simp only [collect, Outcome.bind]
      cases hc : collect os with
      | ok b =>
        obtain ⟨b1, b2⟩ := b
        simp only [Outcome.map, Outcome.ok.injEq, Prod.mk.injEq, List.append_eq_nil_iff]
        constructor
        · rintro ⟨rfl, h1, rfl⟩
          have := (ih b1).mp hc
          rw [this]
          obtain ⟨a1, a2⟩ := a
          simp only at h1
          subst h1
          rfl
        · intro h
          cases ls with
          | nil => simp at h
          | cons l ls =>
            simp only [List.map_cons, List.cons.injEq, fine, Outcome.ok.injEq] at h
            obtain ⟨rfl, h2⟩ := h
            have := (ih ls).mpr h2
            rw [hc] at this
            simp only [Outcome.ok.injEq, Prod.mk.injEq] at this
            simp [this.1, this.2]
      | throw e =>
        simp only [Outcome.map, reduceCtorEq, false_iff]
        intro h
        cases ls with
        | nil => simp at h
        | cons l ls =>
          simp only [List.map_cons, List.cons.injEq] at h
          have := (ih ls).mpr h.2
          rw [hc] at this; simp at this
      | ub =>
        simp only [Outcome.map, reduceCtorEq, false_iff]
        intro h
        cases ls with
        | nil => simp at h
        | cons l ls =>
          simp only [List.map_cons, List.cons.injEq] at h
          have := (ih ls).mpr h.2
          rw [hc] at this; simp at this
    | throw e => cases ls <;> simp [collect, Outcome.bind, fine]
    | ub => cases ls <;> simp [collect, Outcome.bind, fine]

theorem interleave_fine : ∀ (as bs : List (Outcome Read)) (ls : List PbLit),
    as.length = bs.length → interleave as bs = ls.map fine →
    as = (unpair ls).1.map fine ∧ bs = (unpair ls).2.map fine
  | [], [], ls, _, h => by
    simp [interleave] at h
    subst h; simp [unpair]
  | [], _ :: _, _, h, _ => by simp at h
  | _ :: _, [], _, h, _ => by simp at h
  | a :: as, b :: bs, ls, hl, h => by
    rcases ls with _ | ⟨x, _ | ⟨y, ls⟩⟩
    · simp [interleave] at h
    · simp [interleave] at h
    · simp only [interleave, List.map_cons, List.cons.injEq] at h
      have ih := interleave_fine as bs ls (by simpa using hl) h.2.2
      simp only [unpair, List.map_cons]
      exact ⟨by rw [h.1, ← ih.1], by rw [h.2.1, ← ih.2]⟩

theorem visitEach_same (lib : Lib) (inside : Bool) (e : Option PbType) : ∀ (cs : List ConstTree)
    (ls : List PbLit), visitEach lib inside (List.replicate cs.length e) cs = ls.map fine →
    Each (fun c l => visitConst lib inside e c = .ok (l, [])) cs ls
  | [], ls, h => by simp [visitEach] at h; subst h; trivial
  | c :: cs, ls, h => by
    cases ls with
    | nil => simp [visitEach, List.replicate_succ] at h
    | cons l ls =>
      simp only [List.length_cons, List.replicate_succ, visitEach, List.map_cons,
        List.cons.injEq] at h
      exact ⟨h.1, visitEach_same lib inside e cs ls h.2⟩

theorem visitEach_types (lib : Lib) (inside : Bool) : ∀ (ts : List PbType) (cs : List ConstTree)
    (ls : List PbLit), ts.length = cs.length →
    visitEach lib inside (ts.map some) cs = ls.map fine →
    Each (fun c p => visitConst lib inside (some p.1) c = .ok (p.2, [])) cs (ts.zip ls)
  | [], [], ls, _, h => by simp [visitEach] at h; subst h; trivial
  | [], _ :: _, _, h, _ => by simp at h
  | _ :: _, [], _, h, _ => by simp at h
  | t :: ts, c :: cs, ls, hl, h => by
    cases ls with
    | nil => simp [visitEach] at h
    | cons l ls =>
      simp only [List.map_cons, visitEach, List.cons.injEq] at h
      exact ⟨h.1, visitEach_types lib inside ts cs ls (by simpa using hl) h.2⟩

/-! ## The parts of constants -/

/-- **C54, booleans.**  A boolean that is read without an error is the one written, and its
type, if there is one, is the boolean type. -/
theorem boolean_read (lib : Lib) (inside : Bool) (ext : Option PbType) (b : Bool) (w : Str)
    (own : Option TypeTree) (l : PbLit)
    (h : visitConst lib inside ext (.bool b w own) = .ok (l, [])) :
    l = .atom (.boolean b) false ∧
    (ext = none ∧ own = none ∨ ∃ n, typeFor inside ext own = .ok (some (.scalar .bool n), [])) := by
  simp only [visitConst] at h
  cases ht : typeFor inside ext own with
  | ok t =>
    obtain ⟨ty, errs⟩ := t
    simp only [ht, Outcome.bind] at h
    split at h
    · simp only [Outcome.ok.injEq, Prod.mk.injEq] at h
      obtain ⟨rfl, rfl⟩ := h
      exact ⟨rfl, .inr ⟨_, rfl⟩⟩
    · simp at h
    · simp only [Outcome.ok.injEq, Prod.mk.injEq] at h
      refine ⟨h.1.symm, .inl ?_⟩
      unfold typeFor at ht
      split at ht
      · simp at ht
      · rename_i tree
        cases hx : textToTypeProto inside tree.text <;> simp [hx, Outcome.map] at ht
      · exact ⟨rfl, rfl⟩
  | throw e => simp [ht, Outcome.bind] at h
  | ub => simp [ht, Outcome.bind] at h

/-- **C54, nulls.**  A null with a type is read as the null of the nullable version of it. -/
theorem null_read (lib : Lib) (inside : Bool) (ext : Option PbType) (w : Str)
    (own : Option TypeTree) (ty : PbType) (errs : List LitErr)
    (ht : typeFor inside ext own = .ok (some ty, errs)) :
    ∃ ty', visitConst lib inside ext (.null w own) = .ok (.atom (.null ty') false, errs) ∧
      bare ty' = bare ty ∧ (∀ n, ownNull ty' = some n → n = .nullable) := by
  refine ⟨setNullable ty, by simp only [visitConst, ht, Outcome.bind], ?_, ?_⟩
  · cases ty <;> rfl
  · intro n hn
    cases ty <;> simp_all [setNullable, ownNull]

/-- **C54, maps.**  A map with pairs that is read without an error has the keys and values
written, in order, each read with the key or value type. -/
theorem map_read (lib : Lib) (inside : Bool) (ext : Option PbType) (keys values : List ConstTree)
    (own : Option TypeTree) (k v : PbType) (n : Nullability) (l : PbLit)
    (ht : typeFor inside ext own = .ok (some (.map k v n), []))
    (hl : keys.length = values.length) (hne : keys ≠ [])
    (h : visitConst lib inside ext (.mapLit keys values own) = .ok (l, [])) :
    ∃ ks vs, l = .map ks vs false ∧
      Each (fun c x => visitConst lib inside (some k) c = .ok (x, [])) keys ks ∧
      Each (fun c x => visitConst lib inside (some v) c = .ok (x, [])) values vs := by
  have he : keys.isEmpty = false := by cases keys <;> simp_all
  simp only [visitConst, ht, Outcome.bind, he, Bool.false_eq_true, if_false] at h
  cases hc : collect (interleave (visitEach lib inside (List.replicate keys.length (some k)) keys)
      (visitEach lib inside (List.replicate values.length (some v)) values)) with
  | ok r =>
    obtain ⟨ls, errs⟩ := r
    simp only [hc, Outcome.map, Outcome.ok.injEq, Prod.mk.injEq, List.nil_append] at h
    obtain ⟨rfl, rfl⟩ := h
    obtain ⟨h1, h2⟩ := interleave_fine _ _ ls (by simp [visitEach_length, hl])
      ((collect_fine _ _).mp hc)
    exact ⟨_, _, rfl, visitEach_same _ _ _ _ _ h1, visitEach_same _ _ _ _ _ h2⟩
  | throw e => simp [hc, Outcome.map] at h
  | ub => simp [hc, Outcome.map] at h

/-- **C54, lists.**  A list that is read without an error has the elements written, in order,
each read with the element type. -/
theorem list_read (lib : Lib) (inside : Bool) (ext : Option PbType) (items : List ConstTree)
    (own : Option TypeTree) (e : PbType) (n : Nullability) (l : PbLit)
    (ht : typeFor true ext own = .ok (some (.list e n), [])) (hne : items ≠ [])
    (h : visitConst lib inside ext (.structLit items own) = .ok (l, [])) :
    ∃ ls, l = .list ls false ∧
      Each (fun c x => visitConst lib true (some e) c = .ok (x, [])) items ls := by
  simp only [visitConst, ht, Outcome.bind, after] at h
  cases hc : collect (visitEach lib true (List.replicate items.length (some e)) items) with
  | ok r =>
    obtain ⟨ls, errs⟩ := r
    simp only [hc, Outcome.map, Outcome.ok.injEq, Prod.mk.injEq, List.nil_append] at h
    obtain ⟨h1, rfl⟩ := h
    have h2 := (collect_fine _ _).mp hc
    have h3 := visitEach_same _ _ _ _ _ h2
    refine ⟨ls, ?_, h3⟩
    rw [← h1, unlessEmpty, if_neg]
    intro hx
    rw [List.isEmpty_iff] at hx
    subst hx
    cases items with
    | nil => exact hne rfl
    | cons => simp [Each] at h3
  | throw e => simp [hc, Outcome.map] at h
  | ub => simp [hc, Outcome.map] at h

/-- **C54, structs.**  A struct that is read without an error has the fields written, in order,
each read with the type of the field, and there are as many as the type has fields. -/
theorem struct_read (lib : Lib) (inside : Bool) (ext : Option PbType) (items : List ConstTree)
    (own : Option TypeTree) (types : List PbType) (n : Nullability) (l : PbLit)
    (hne : items ≠ []) (ht : typeFor true ext own = .ok (some (.struct types n), []))
    (h : visitConst lib inside ext (.structLit items own) = .ok (l, [])) :
    items.length = types.length ∧ ∃ fields, l = .struct fields false ∧
      fields.length = types.length ∧
      Each (fun c p => visitConst lib true (some p.1) c = .ok (p.2, [])) items
        (types.zip fields) := by
  obtain ⟨h1, fields, rfl, h2⟩ := struct_complete lib inside ext items own types n l hne ht h
  refine ⟨h1, fields, rfl, h2, ?_⟩
  simp only [visitConst, ht, Outcome.bind, after, structOf] at h
  cases hc : collect (visitEach lib true (types.map some) items) with
  | ok r =>
    obtain ⟨ls, errs⟩ := r
    simp only [hc, Outcome.map, Outcome.ok.injEq, Prod.mk.injEq, List.nil_append] at h
    obtain ⟨h3, h4⟩ := h
    obtain ⟨rfl, -⟩ := List.append_eq_nil_iff.mp h4
    have : ls = fields := by
      unfold unlessEmpty at h3
      split at h3
      · simp [empty] at h3
      · simpa using h3
    subst this
    exact visitEach_types lib true types items ls h1.symm ((collect_fine _ _).mp hc)
  | throw e => simp [hc, Outcome.map] at h
  | ub => simp [hc, Outcome.map] at h

/-- **C54 as stated is false**: the pairs of a map that is given a struct type are lost without
an error. -/
theorem map_as_struct_lost (lib : Lib) (keys values : List ConstTree) (types : List PbType)
    (n : Nullability) :
    visitConst lib false (some (.struct types n)) (.mapLit keys values none) =
      .ok (.struct [] false, []) := rfl

/-- The words of the grammar for booleans. -/
theorem boolean_words :
    parseLiteral "true".toList = some (.bool true "true".toList none) ∧
    parseLiteral "false".toList = some (.bool false "false".toList none) := by
  constructor <;> rfl

/-- Non-vacuity of C54: a map and a list. -/
example (lib : Lib) :
    visitConst lib false (some (.map (.scalar .bool .required) (.scalar .string .required) .required))
      (.mapLit [.bool true "true".toList none] [.null "null".toList none] none) =
    .ok (.map [.atom (.boolean true) false]
      [.atom (.null (.scalar .string .nullable)) false] false, []) := rfl

example (lib : Lib) :
    visitConst lib false (some (.list (.scalar .bool .required) .required))
      (.structLit [.bool true "true".toList none, .bool false "false".toList none] none) =
    .ok (.list [.atom (.boolean true) false, .atom (.boolean false) false] false, []) := rfl

end Verif.Literal
