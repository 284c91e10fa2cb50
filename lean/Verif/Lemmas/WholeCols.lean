import Verif.Lemmas.WholeNames
import Verif.Lemmas.WholeExpr
import Verif.Lemmas.Schema

/-! # The columns of the relations of a plan, for both symbol tables -/

namespace Verif.Whole

open Verif Verif.Expr Verif.Schema

/-- A column that comes out of a relation: of a table, the value of an expression, or a
measure.  `rel` is the relation it comes from. -/
inductive Col where
  | column (rel schema : Str) (k : Nat) (name : Str)
  | computed (rel : Str) (k : Nat) (name : Str)
  | measure (rel : Str) (k : Nat) (name : Str)

instance : Inhabited Col := ⟨.computed [] 0 []⟩

/-- The column in the table of the converter. -/
def Col.conv : Col → Field
  | .column rel s k n => ⟨.column rel k, n, [], some s⟩
  | .computed rel k n => ⟨.computed rel k, n, n, none⟩
  | .measure rel k n => ⟨.measure rel k, n, [], none⟩

/-- The column in the table of the reader. -/
def Col.read : Col → Field
  | .column _ s k n => ⟨.column s k, n, [], some s⟩
  | .computed rel k n => ⟨.computed rel k, n, [], none⟩
  | .measure rel k n => ⟨.measure rel k, n, [], none⟩

/-- The name that is printed. -/
def Col.text : Col → Str
  | .column _ s _ n => s ++ '.' :: n
  | .computed _ _ n => n
  | .measure _ _ n => n

def Col.isColumn : Col → Bool
  | .column _ _ _ _ => true
  | _ => false

/-- The made up name that makes the column different from others. -/
def Col.label : Col → Str
  | .column _ s _ _ => s
  | .computed _ _ n => n
  | .measure _ _ n => n

/-- The names are as they should be. -/
def Col.Ok : Col → Prop
  | .column _ s _ n => MadeUp s ∧ Ext.IsName n ∧ ¬ MadeUp n ∧ ¬ "_enum".toList <:+ n
  | .computed _ _ n => MadeUp n
  | .measure _ _ n => MadeUp n

theorem nameOf_conv (c : Col) : nameOf c.conv = c.text := by
  cases c with
  | column rel s k n => rfl
  | computed rel k n =>
    simp only [Col.conv, nameOf, Col.text]
    cases n <;> rfl
  | measure rel k n => rfl

theorem nameOf_read (c : Col) : nameOf c.read = c.text := by
  cases c <;> rfl

theorem split_dot {a b c d : Str} (ha : '.' ∉ a) (hc : '.' ∉ c) (h : a ++ '.' :: b = c ++ '.' :: d) :
    a = c ∧ b = d := by
  induction a generalizing c with
  | nil =>
    cases c with
    | nil => simp at h; exact ⟨rfl, h⟩
    | cons x c =>
      simp only [List.nil_append, List.cons_append, List.cons.injEq] at h
      exact absurd (h.1 ▸ List.mem_cons_self) hc
  | cons x a ih =>
    cases c with
    | nil =>
      simp only [List.nil_append, List.cons_append, List.cons.injEq] at h
      exact absurd (h.1 ▸ List.mem_cons_self) ha
    | cons y c =>
      simp only [List.cons_append, List.cons.injEq] at h
      have := ih (fun hm => ha (by simp [hm])) (fun hm => hc (by simp [hm])) h.2
      exact ⟨by rw [h.1, this.1], this.2⟩

theorem madeUp_no_dot {s : Str} (h : MadeUp s) : '.' ∉ s := name_no_dot h.name

theorem Col.Ok.label {c : Col} (h : c.Ok) : MadeUp c.label := by
  cases c with
  | column rel s k n => exact h.1
  | computed rel k n => exact h
  | measure rel k n => exact h

theorem Col.Ok.text_dot {c : Col} (h : c.Ok) : '.' ∈ c.text ↔ c.isColumn = true := by
  cases c with
  | column rel s k n => simp [Col.text, Col.isColumn]
  | computed rel k n => simp only [Col.text, Col.isColumn]; simp [madeUp_no_dot h]
  | measure rel k n => simp only [Col.text, Col.isColumn]; simp [madeUp_no_dot h]

/-- The text tells the label. -/
theorem Col.Ok.label_eq {c c' : Col} (h : c.Ok) (h' : c'.Ok) (e : c.text = c'.text) :
    c.label = c'.label ∧ c.isColumn = c'.isColumn := by
  have hk : c.isColumn = c'.isColumn := by
    have := h.text_dot
    rw [e, h'.text_dot] at this
    cases h1 : c.isColumn <;> cases h2 : c'.isColumn <;> simp_all
  refine ⟨?_, hk⟩
  cases c <;> cases c' <;> simp only [Col.isColumn, reduceCtorEq] at hk <;> try exact e
  exact (split_dot (madeUp_no_dot h.1) (madeUp_no_dot h'.1) e).1

theorem Col.Ok.isColumn_text {c : Col} (h : c.Ok) : IsColumn c.text := by
  cases c with
  | column rel s k n => exact .inr ⟨s, n, rfl, h.1.name, h.2.1⟩
  | computed rel k n => exact MadeUp.column h
  | measure rel k n => exact MadeUp.column h

theorem suffix_after {s a b : Str} {x : Char} (h : s <:+ a ++ x :: b) (hx : x ∉ s) : s <:+ b := by
  rcases List.suffix_or_suffix_of_suffix h (List.suffix_append a (x :: b)) with h1 | h1
  · rcases List.suffix_cons_iff.mp h1 with rfl | h2
    · simp at hx
    · exact h2
  · obtain ⟨t, ht⟩ := h1
    exact absurd (by rw [← ht]; simp) hx

theorem Col.Ok.notEnum {c : Col} (h : c.Ok) : ¬ "_enum".toList <:+ c.text := by
  cases c with
  | column rel s k n =>
    intro hs
    exact h.2.2.2 (suffix_after hs (by decide))
  | computed rel k n => exact MadeUp.notEnum h
  | measure rel k n => exact MadeUp.notEnum h

theorem refers_read {c c' : Col} (h : c.Ok) (h' : c'.Ok) :
    refers c.text c'.read = true ↔ c.isColumn = false ∧ c'.text = c.text := by
  have e : refers c.text c'.read = true ↔ c'.read.name = c.text := by
    cases c' <;> simp [refers, Col.read]
  rw [e]
  constructor
  · intro hn
    have hc : c.isColumn = false := by
      cases hc : c.isColumn with
      | false => rfl
      | true =>
        have := h.text_dot.mpr hc
        rw [← hn] at this
        cases c' with
        | column rel s k n => exact absurd this (name_no_dot h'.2.1)
        | computed rel k n => exact absurd this (madeUp_no_dot h')
        | measure rel k n => exact absurd this (madeUp_no_dot h')
    refine ⟨hc, ?_⟩
    cases c' with
    | column rel s k n =>
      have hm : MadeUp c.text := by
        cases c with
        | column _ _ _ _ => simp [Col.isColumn] at hc
        | computed _ _ _ => exact h
        | measure _ _ _ => exact h
      rw [← hn] at hm
      exact absurd hm h'.2.2.1
    | computed rel k n => exact hn
    | measure rel k n => exact hn
  · rintro ⟨hc, ht⟩
    have hk := (h'.label_eq h ht).2
    cases c' with
    | column _ _ _ _ => rw [hc] at hk; simp [Col.isColumn] at hk
    | computed _ _ _ => exact ht
    | measure _ _ _ => exact ht

theorem refersFull_read {c c' : Col} (h : c.Ok) (h' : c'.Ok) :
    refersFull c.text c'.read = true ↔ c'.text = c.text := by
  unfold refersFull
  rw [Bool.or_eq_true, refers_read h h', beq_iff_eq]
  constructor
  · rintro (⟨-, e⟩ | e)
    · exact e
    · cases c' <;> exact e
  · intro e
    right
    cases c' <;> exact e

/-! ## Looking for columns -/

/-- A field that is asked for is found: among the generated ones if it is computed and there
is one of that name, otherwise among the fields of the inputs. -/
theorem findHere_read {f g : List Col} {ag emit : Bool} {out : List Field} {c : Col}
    (hf : ∀ x ∈ f, x.Ok) (hg : ∀ x ∈ g, x.Ok) (hc : c.Ok) (hl : f.length + g.length < 2147483648)
    (hm : (∃ x ∈ f, x.text = c.text) ∨ c.isColumn = false ∧ ∃ x ∈ g, x.text = c.text) :
    ∃ i, findHere emit ⟨ag, f.map Col.read, g.map Col.read, out⟩ c.text = some i ∧
      ((c.isColumn = false ∧ ∃ j x, g[j]? = some x ∧ x.text = c.text ∧
          i = (if ag && emit then 0 else f.length) + j) ∨
        ((c.isColumn = true ∨ ∀ x ∈ g, x.text ≠ c.text) ∧
          ∃ j x, f[j]? = some x ∧ x.text = c.text ∧ ((ag && emit) = false → i = j))) := by
  cases hfi : findHere emit ⟨ag, f.map Col.read, g.map Col.read, out⟩ c.text with
  | none =>
    exfalso
    rw [findHere_none] at hfi
    simp only [List.mem_map, forall_exists_index, and_imp, forall_apply_eq_imp_iff₂] at hfi
    rcases hm with ⟨x, hx, e⟩ | ⟨hk, x, hx, e⟩
    · have := hfi.2 x hx
      rw [(refersFull_read hc (hf x hx)).mpr e] at this
      exact absurd this (by simp)
    · have := hfi.1 x hx
      rw [(refers_read hc (hg x hx)).mpr ⟨hk, e⟩] at this
      exact absurd this (by simp)
  | some i =>
    refine ⟨i, rfl, ?_⟩
    rcases findHere_some hfi (by simpa using hl) with ⟨j, y, hj, hr, hi, -⟩ | ⟨hn, j, y, hj, hr, -, hi⟩
    · left
      simp only [List.getElem?_map, Option.map_eq_some_iff] at hj
      obtain ⟨x, hx, rfl⟩ := hj
      have := (refers_read hc (hg x (List.mem_of_getElem? hx))).mp hr
      refine ⟨this.1, j, x, hx, this.2, ?_⟩
      rw [hi, List.length_map]
    · right
      simp only [List.getElem?_map, Option.map_eq_some_iff] at hj
      obtain ⟨x, hx, rfl⟩ := hj
      refine ⟨?_, j, x, hx, (refersFull_read hc (hf x (List.mem_of_getElem? hx))).mp hr, hi⟩
      cases hk : c.isColumn with
      | true => exact .inl rfl
      | false =>
        right
        intro x hx e
        have := hn x.read (List.mem_map.mpr ⟨x, hx, rfl⟩)
        rw [(refers_read hc (hg x hx)).mpr ⟨hk, e⟩] at this
        exact absurd this (by simp)

/-- A column of another relation is not found. -/
theorem findHere_apart {f g : List Col} {ag emit : Bool} {out : List Field} {c : Col}
    (hf : ∀ x ∈ f, x.Ok) (hg : ∀ x ∈ g, x.Ok) (hc : c.Ok) (h : ∀ x ∈ f ++ g, x.text ≠ c.text) :
    findHere emit ⟨ag, f.map Col.read, g.map Col.read, out⟩ c.text = none := by
  rw [findHere_none]
  simp only [List.mem_map, forall_exists_index, and_imp, forall_apply_eq_imp_iff₂]
  refine ⟨fun x hx => ?_, fun x hx => ?_⟩
  · rw [Bool.eq_false_iff]
    intro hr
    exact h x (List.mem_append_right _ hx) ((refers_read hc (hg x hx)).mp hr).2
  · rw [Bool.eq_false_iff]
    intro hr
    exact h x (List.mem_append_left _ hx) ((refersFull_read hc (hf x hx)).mp hr)

/-- Texts that are all different tell the number. -/
theorem index_of_text {f : List Col} (hn : (f.map Col.text).Nodup) {i j : Nat} {x y : Col}
    (hi : f[i]? = some x) (hj : f[j]? = some y) (e : x.text = y.text) : i = j := by
  have h1 : (f.map Col.text)[i]? = some x.text := by rw [List.getElem?_map, hi]; rfl
  have h2 : (f.map Col.text)[j]? = some x.text := by rw [List.getElem?_map, hj, e]; rfl
  obtain ⟨hi', -⟩ := List.getElem?_eq_some_iff.mp h1
  exact (List.getElem?_inj hi' hn).mp (h1.trans h2.symm)

/-- A reference to a field of the inputs is found as that field. -/
theorem find_field {f g : List Col} {ag emit : Bool} {out : List Field} {c : Col} {i : Nat}
    (hf : ∀ x ∈ f, x.Ok) (hg : ∀ x ∈ g, x.Ok) (hl : f.length + g.length < 2147483648)
    (hn : (f.map Col.text).Nodup) (hi : f[i]? = some c)
    (ho : c.isColumn = true ∨ ∀ x ∈ g, x.text ≠ c.text) (he : (ag && emit) = false) :
    findHere emit ⟨ag, f.map Col.read, g.map Col.read, out⟩ c.text = some i := by
  have hm := List.mem_of_getElem? hi
  obtain ⟨k, hk, h⟩ := findHere_read (emit := emit) (ag := ag) (out := out) hf hg (hf c hm) hl
    (.inl ⟨c, hm, rfl⟩)
  rw [hk]
  rcases h with ⟨h1, j, x, hx, hxe, -⟩ | ⟨-, j, x, hx, hxe, hij⟩
  · exfalso
    rcases ho with ho | ho
    · rw [h1] at ho; exact absurd ho (by simp)
    · exact ho x (List.mem_of_getElem? hx) hxe
  · rw [hij he, index_of_text hn hx hi hxe]

/-- A computed field that is generated once is found. -/
theorem find_generated {f g : List Col} {out : List Field} {c : Col} {i : Nat}
    (hf : ∀ x ∈ f, x.Ok) (hg : ∀ x ∈ g, x.Ok) (hl : f.length + g.length < 2147483648)
    (hn : (g.map Col.text).Nodup) (hi : g[i]? = some c) (hk : c.isColumn = false) :
    findHere true ⟨true, f.map Col.read, g.map Col.read, out⟩ c.text = some i := by
  have hm := List.mem_of_getElem? hi
  obtain ⟨k, hk', h⟩ := findHere_read (emit := true) (ag := true) (out := out) hf hg (hg c hm) hl
    (.inr ⟨hk, c, hm, rfl⟩)
  rw [hk']
  rcases h with ⟨-, j, x, hx, hxe, hij⟩ | ⟨h1, -⟩
  · rw [hij, index_of_text hn hx hi hxe]
    simp
  · exfalso
    rcases h1 with h1 | h1
    · rw [hk] at h1; exact absurd h1 (by simp)
    · exact h1 c hm rfl

end Verif.Whole
