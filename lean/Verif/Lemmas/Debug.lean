import Verif.Spec.Debug
import Verif.Lemmas.Strings

/-! # Lemmas about the debug text -/

namespace Verif.Debug

open Verif Schema

/-- Two texts up to the first place of a character. -/
theorem cut {c : Char} : ∀ {a b x y : Str}, c ∉ a → c ∉ b → a ++ c :: x = b ++ c :: y →
    a = b ∧ x = y
  | [], [], x, y, _, _, h => by simpa using h
  | [], d :: b, x, y, _, hb, h => by
    simp only [List.nil_append, List.cons_append, List.cons.injEq] at h
    exact absurd (by simp [h.1]) hb
  | d :: a, [], x, y, ha, _, h => by
    simp only [List.nil_append, List.cons_append, List.cons.injEq] at h
    exact absurd (by simp [h.1]) ha
  | d :: a, e :: b, x, y, ha, hb, h => by
    simp only [List.cons_append, List.cons.injEq] at h
    have := cut (fun hm => ha (by simp [hm])) (fun hm => hb (by simp [hm])) h.2
    exact ⟨by rw [h.1, this.1], this.2⟩

/-- Nothing, or a text that starts with the character. -/
def StartsOr (c : Char) (s : Str) : Prop := s = [] ∨ ∃ t, s = c :: t

/-- The same if there may be no such place. -/
theorem cutOr {c : Char} {a b x y : Str} (ha : c ∉ a) (hb : c ∉ b) (hx : StartsOr c x)
    (hy : StartsOr c y) (h : a ++ x = b ++ y) : a = b ∧ x = y := by
  rcases hx with rfl | ⟨x, rfl⟩ <;> rcases hy with rfl | ⟨y, rfl⟩
  · simpa using h
  · simp only [List.append_nil] at h
    exact absurd (by simp [h]) ha
  · simp only [List.append_nil] at h
    exact absurd (by simp [← h]) hb
  · have := cut ha hb h
    exact ⟨this.1, by rw [this.2]⟩

theorem ended_inj : ∀ {a b : List Str}, (∀ l ∈ a, '\n' ∉ l) → (∀ l ∈ b, '\n' ∉ l) →
    ended a = ended b → a = b
  | [], [], _, _, _ => rfl
  | [], l :: b, _, _, h => by simp [ended] at h
  | l :: a, [], _, _, h => by simp [ended] at h
  | l :: a, m :: b, ha, hb, h => by
    simp only [ended, List.flatMap_cons, List.append_assoc, List.singleton_append] at h
    have := cut (ha l (by simp)) (hb m (by simp)) h
    rw [this.1, ended_inj (fun x hx => ha x (by simp [hx])) (fun x hx => hb x (by simp [hx])) this.2]

theorem digit_of_natText {n : Nat} {c : Char} (h : c ∈ natText n) : c ≠ ' ' ∧ c ≠ '\n' := by
  have := Nat.isDigit_of_mem_toDigits (by decide) (by decide) h
  constructor <;> rintro rfl <;> exact absurd this (by decide)

theorem natText_line (n : Nat) : '\n' ∉ natText n := fun h => (digit_of_natText h).2 rfl

theorem fit_line {n : Nat} {s : Str} (h : '\n' ∉ s) : '\n' ∉ fit n s := by
  unfold fit
  intro hm
  rcases List.mem_append.mp hm with hm | hm
  · exact h hm
  · have := List.eq_of_mem_replicate hm
    exact absurd this (by decide)

theorem aliasText_starts (s : Str) : StartsOr ' ' (aliasText s) := by
  unfold aliasText
  split
  · exact .inl rfl
  · exact .inr ⟨_, rfl⟩

theorem aliasText_inj {s t : Str} (h : aliasText s = aliasText t) : s = t := by
  unfold aliasText at h
  cases s <;> cases t <;> simp at h ⊢
  exact h

theorem fieldText_blank {f : Field} (h : CleanField f) : ' ' ∉ fieldText f := by
  unfold fieldText
  cases hs : f.schema with
  | none => simpa using h.name.1
  | some s =>
    simp only [List.mem_append, not_or]
    exact ⟨⟨(h.schema s hs).1, by decide⟩, h.name.1⟩

theorem fieldText_line {f : Field} (h : CleanField f) : '\n' ∉ fieldText f := by
  unfold fieldText
  cases hs : f.schema with
  | none => simpa using h.name.2.2
  | some s =>
    simp only [List.mem_append, not_or]
    exact ⟨⟨(h.schema s hs).2.2, by decide⟩, h.name.2.2⟩

theorem fieldText_inj {f g : Field} (hf : CleanField f) (hg : CleanField g)
    (h : fieldText f = fieldText g) : f.schema = g.schema ∧ f.name = g.name := by
  unfold fieldText at h
  cases hs : f.schema with
  | none =>
    cases ht : g.schema with
    | none => simpa [hs, ht] using h
    | some t =>
      simp only [hs, ht, List.nil_append, List.append_assoc, List.singleton_append] at h
      exact absurd (by simp [h]) hf.name.2.1
  | some s =>
    cases ht : g.schema with
    | none =>
      simp only [hs, ht, List.nil_append, List.append_assoc, List.singleton_append] at h
      exact absurd (by simp [← h]) hg.name.2.1
    | some t =>
      simp only [hs, ht, List.append_assoc, List.singleton_append] at h
      have := cut (hf.schema s hs).2.1 (hg.schema t ht).2.1 h
      exact ⟨by rw [this.1], this.2⟩

theorem aliasText_line {s : Str} (h : '\n' ∉ s) : '\n' ∉ aliasText s := by
  unfold aliasText
  split
  · simp
  · simp [h]

theorem rowStart_line {m : Char} (hm : m ≠ '\n') (n : Nat) : '\n' ∉ rowStart m n := by
  unfold rowStart
  simp only [List.mem_append, not_or]
  refine ⟨⟨?_, fit_line (natText_line n)⟩, by decide⟩
  intro h
  simp only [List.mem_cons, List.not_mem_nil, or_false] at h
  rcases h with h | h | h | h
  · exact absurd h (by decide)
  · exact absurd h (by decide)
  · exact absurd h (by decide)
  · exact hm h.symm

theorem row_line {m : Char} (hm : m ≠ '\n') (n : Nat) {f : Field} (h : CleanField f) :
    '\n' ∉ row m n f := by
  unfold row
  simp only [List.mem_append, not_or]
  exact ⟨⟨rowStart_line hm n, fieldText_line h⟩, aliasText_line h.alias⟩

theorem row_inj {m : Char} {n : Nat} {f g : Field} (hf : CleanField f) (hg : CleanField g)
    (h : row m n f = row m n g) : seen f = seen g := by
  unfold row at h
  simp only [List.append_assoc] at h
  have h1 := List.append_cancel_left h
  have h2 := cutOr (fieldText_blank hf) (fieldText_blank hg) (aliasText_starts _)
    (aliasText_starts _) h1
  have h3 := fieldText_inj hf hg h2.1
  simp only [seen, h3.1, h3.2, aliasText_inj h2.2]

theorem rows_inj {m : Char} : ∀ {fs gs : List Field} {n : Nat}, (∀ f ∈ fs, CleanField f) →
    (∀ g ∈ gs, CleanField g) → rows (row m) n fs = rows (row m) n gs → fs.map seen = gs.map seen
  | [], [], _, _, _, _ => rfl
  | [], g :: gs, _, _, _, h => by simp [rows] at h
  | f :: fs, [], _, _, _, h => by simp [rows] at h
  | f :: fs, g :: gs, n, hf, hg, h => by
    simp only [rows, List.cons.injEq] at h
    simp only [List.map_cons]
    rw [row_inj (hf f (by simp)) (hg g (by simp)) h.1,
      rows_inj (fun x hx => hf x (by simp [hx])) (fun x hx => hg x (by simp [hx])) h.2]

theorem rows_mem {line : Nat → Field → Str} : ∀ {fs : List Field} {n : Nat} {l : Str},
    l ∈ rows line n fs → ∃ k, ∃ f ∈ fs, l = line k f
  | [], _, _, h => by simp [rows] at h
  | f :: fs, n, l, h => by
    simp only [rows, List.mem_cons] at h
    rcases h with rfl | h
    · exact ⟨n, f, by simp, rfl⟩
    · obtain ⟨k, g, hg, e⟩ := rows_mem h
      exact ⟨k, g, by simp [hg], e⟩

theorem rows_get {line : Nat → Field → Str} : ∀ {fs : List Field} {n k : Nat},
    (rows line n fs)[k]? = (fs[k]?).map (line (n + k))
  | [], _, _ => by simp [rows]
  | f :: fs, n, 0 => by simp [rows]
  | f :: fs, n, k + 1 => by
    simp only [rows, List.getElem?_cons_succ, rows_get]
    rw [Nat.add_assoc, Nat.add_comm 1 k]

theorem rowStart_numbered (m : Char) (n : Nat) (s : Str) : Numbered m n (rowStart m n ++ s) := by
  unfold rowStart fit
  cases h : 4 - (natText n).length with
  | zero => exact ⟨' ' :: s, by simp⟩
  | succ k => exact ⟨List.replicate k ' ' ++ (' ' :: ' ' :: s), by simp [List.replicate_succ]⟩

theorem generatedRow_plain {alt : Nat → Option Str} (h : ∀ k, alt k = none) :
    generatedRow alt = row 'g' := by
  funext n f
  simp [generatedRow, row, h]

/-- The mark of a line. -/
def mark (l : Str) : Option Char := l[3]?

theorem row_mark (m : Char) (n : Nat) (f : Field) : mark (row m n f) = some m := by
  simp [mark, row, rowStart]

theorem rows_filter {c m : Char} {fs : List Field} {n : Nat} :
    (rows (row m) n fs).filter (fun l => mark l == some c) =
      if m = c then rows (row m) n fs else [] := by
  split
  · rename_i e
    subst e
    rw [List.filter_eq_self]
    intro l hl
    obtain ⟨k, f, _, rfl⟩ := rows_mem hl
    simp [row_mark]
  · rename_i e
    rw [List.filter_eq_nil_iff]
    intro l hl
    obtain ⟨k, f, _, rfl⟩ := rows_mem hl
    simpa [row_mark] using e

theorem rows_length {line : Nat → Field → Str} : ∀ (fs : List Field) (n : Nat),
    (rows line n fs).length = fs.length
  | [], _ => rfl
  | f :: fs, n => by simp [rows, rows_length fs]

theorem entryRows_inj {d e : Entry} (hd : Clean d) (he : Clean e) (h : entryRows d = entryRows e) :
    d.data.fields.map seen = e.data.fields.map seen ∧
    d.data.generated.map seen = e.data.generated.map seen ∧
    d.data.output.map seen = e.data.output.map seen := by
  unfold entryRows at h
  rw [generatedRow_plain hd.plain, generatedRow_plain he.plain] at h
  have h1 := congrArg (List.filter fun l => mark l == some ' ') h
  have h2 := congrArg (List.filter fun l => mark l == some 'g') h
  have h3 := congrArg (List.filter fun l => mark l == some 'o') h
  simp only [List.filter_append, rows_filter] at h1 h2 h3
  simp at h1 h2 h3
  have hl : d.data.fields.length = e.data.fields.length := by
    have := congrArg List.length h1
    simpa [rows_length] using this
  rw [hl] at h2
  exact ⟨rows_inj hd.fields he.fields h1, rows_inj hd.generated he.generated h2,
    rows_inj hd.output he.output h3⟩

theorem fit_starts (n : Nat) (s : Str) : ∃ k, fit n s = s ++ List.replicate k ' ' := ⟨_, rfl⟩

theorem header_inj {n : Nat} {d e : Entry} (hd : Clean d) (he : Clean e)
    (h : header n d = header n e) : d.name = e.name ∧ d.queries = e.queries := by
  unfold header at h
  simp only [List.append_assoc] at h
  have h1 := List.append_cancel_left h
  have hs : ∀ (x : Entry), StartsOr ' ' (List.replicate (20 - x.name.length) ' ' ++
      if x.queries = 0 then [] else " SQC=".toList ++ natText x.queries) := by
    intro x
    cases hk : 20 - x.name.length with
    | zero =>
      simp only [List.replicate_zero, List.nil_append]
      split
      · exact .inl rfl
      · exact .inr ⟨"SQC=".toList ++ natText x.queries, rfl⟩
    | succ k => exact .inr ⟨_, rfl⟩
  simp only [fit, List.append_assoc] at h1
  obtain ⟨h2, h3⟩ := cutOr hd.name.1 he.name.1 (hs d) (hs e) h1
  refine ⟨h2, ?_⟩
  rw [h2] at h3
  have h4 := List.append_cancel_left h3
  by_cases hq : d.queries = 0 <;> by_cases hp : e.queries = 0
  · rw [hq, hp]
  · simp [hq, hp] at h4
  · simp [hq, hp] at h4
  · simp only [hq, hp, if_false] at h4
    exact natText_inj (List.append_cancel_left h4)

/-- The line starts with a blank. -/
def indented (l : Str) : Bool := l.head? == some ' '

theorem natText_ne (n : Nat) : natText n ≠ [] := by
  intro h
  have := Nat.length_toDigits_pos (b := 10) (n := n)
  unfold natText at h
  rw [h] at this
  simp at this

theorem header_indented (n : Nat) (e : Entry) : indented (header n e) = false := by
  unfold header fit indented
  cases h : natText n with
  | nil => exact absurd h (natText_ne n)
  | cons c cs =>
    have := (digit_of_natText (n := n) (c := c) (by simp [h])).1
    simpa using this

theorem entryRows_indented {e : Entry} (h : Clean e) : ∀ l ∈ entryRows e, indented l = true := by
  intro l hl
  unfold entryRows at hl
  rw [generatedRow_plain h.plain] at hl
  simp only [List.mem_append] at hl
  rcases hl with hl | hl | hl <;> obtain ⟨k, f, _, rfl⟩ := rows_mem hl <;>
    simp [indented, row, rowStart]

/-- Lines up to the first one that is not indented. -/
theorem block {a b x y : List Str} (ha : ∀ l ∈ a, indented l = true) (hb : ∀ l ∈ b, indented l = true)
    (hx : ∀ l, x.head? = some l → indented l = false) (hy : ∀ l, y.head? = some l → indented l = false)
    (h : a ++ x = b ++ y) : a = b ∧ x = y := by
  induction a generalizing b with
  | nil =>
    cases b with
    | nil => exact ⟨rfl, h⟩
    | cons m b =>
      simp only [List.nil_append, List.cons_append] at h
      have h1 := hx m (by simp [h])
      rw [hb m (by simp)] at h1
      cases h1
  | cons l a ih =>
    cases b with
    | nil =>
      simp only [List.nil_append, List.cons_append] at h
      have h1 := hy l (by simp [← h])
      rw [ha l (by simp)] at h1
      cases h1
    | cons m b =>
      simp only [List.cons_append, List.cons.injEq] at h
      have := ih (fun x hx => ha x (by simp [hx])) (fun x hx => hb x (by simp [hx])) h.2
      exact ⟨by rw [h.1, this.1], this.2⟩

theorem linesFrom_head (n : Nat) (es : List Entry) (z : List Str) (hz : z = [] ∨ z = [[]]) :
    ∀ l, (linesFrom n es ++ z).head? = some l → indented l = false := by
  intro l hl
  cases es with
  | nil =>
    rcases hz with rfl | rfl
    · simp [linesFrom] at hl
    · simp [linesFrom] at hl
      subst hl
      rfl
  | cons e es =>
    simp [linesFrom] at hl
    subst hl
    exact header_indented n e

theorem header_long (n : Nat) (e : Entry) : header n e ≠ [] := by
  unfold header fit
  intro h
  simp only [List.append_eq_nil_iff] at h
  exact natText_ne n h.1.1.1

theorem linesFrom_inj : ∀ {ds es : List Entry} {n : Nat}, (∀ d ∈ ds, Clean d) → (∀ e ∈ es, Clean e) →
    linesFrom n ds ++ [[]] = linesFrom n es ++ [[]] → ds.map shown = es.map shown
  | [], [], _, _, _, _ => rfl
  | [], e :: es, n, _, _, h => by
    simp only [linesFrom, List.nil_append, List.cons_append, List.cons.injEq] at h
    exact absurd h.1.symm (header_long n e)
  | d :: ds, [], n, _, _, h => by
    simp only [linesFrom, List.nil_append, List.cons_append, List.cons.injEq] at h
    exact absurd h.1 (header_long n d)
  | d :: ds, e :: es, n, hd, he, h => by
    have cd := hd d (by simp)
    have ce := he e (by simp)
    simp only [linesFrom, List.cons_append, List.append_assoc, List.cons.injEq] at h
    obtain ⟨h1, h2⟩ := block (entryRows_indented cd) (entryRows_indented ce)
      (linesFrom_head _ _ _ (.inr rfl)) (linesFrom_head _ _ _ (.inr rfl)) h.2
    have h3 := header_inj cd ce h.1
    have h4 := entryRows_inj cd ce h1
    simp only [List.map_cons, List.cons.injEq]
    refine ⟨?_, linesFrom_inj (fun x hx => hd x (by simp [hx])) (fun x hx => he x (by simp [hx])) h2⟩
    simp only [shown, h3.1, h3.2, h4.1, h4.2.1, h4.2.2]

theorem header_line {n : Nat} {e : Entry} (h : Clean e) : '\n' ∉ header n e := by
  unfold header
  simp only [List.mem_append, not_or]
  refine ⟨⟨fit_line (natText_line n), fit_line h.name.2.2⟩, ?_⟩
  split
  · simp
  · simp only [List.mem_append, not_or]
    exact ⟨by decide, natText_line _⟩

theorem entryRows_line {e : Entry} (h : Clean e) : ∀ l ∈ entryRows e, '\n' ∉ l := by
  intro l hl
  unfold entryRows at hl
  rw [generatedRow_plain h.plain] at hl
  simp only [List.mem_append] at hl
  rcases hl with hl | hl | hl <;> obtain ⟨k, f, hf, rfl⟩ := rows_mem hl
  · exact row_line (by decide) k (h.fields f hf)
  · exact row_line (by decide) k (h.generated f hf)
  · exact row_line (by decide) k (h.output f hf)

theorem linesFrom_line : ∀ {es : List Entry} {n : Nat}, (∀ e ∈ es, Clean e) →
    ∀ l ∈ linesFrom n es, '\n' ∉ l
  | [], _, _, l, hl => by simp [linesFrom] at hl
  | e :: es, n, h, l, hl => by
    simp only [linesFrom, List.mem_cons, List.mem_append] at hl
    rcases hl with rfl | hl | hl
    · exact header_line (h e (by simp))
    · exact entryRows_line (h e (by simp)) l hl
    · exact linesFrom_line (fun x hx => h x (by simp [hx])) l hl

end Verif.Debug
