import Verif.Lemmas.Schema

/-!
# Lemmas about the schemas of relation trees
-/

namespace Verif.Schema

open Verif

/-- The fields the converter makes: an alias is also the name, and goes with no schema. -/
def Std (f : Field) : Prop := f.alias = [] ∨ (f.alias = f.name ∧ f.schema = none)

/-- The same field in the symbol table of the parser. -/
def toText (f : Field) : Field := { f with alias := [] }

theorem nameOf_std {f : Field} (h : Std f) : nameOf f = qualified f := by
  unfold nameOf qualified
  rcases h with h | ⟨h1, h2⟩
  · simp [h]
  · rw [h1, h2]
    by_cases hn : f.name = []
    · simp [hn]
    · simp [hn]

theorem qualified_toText (f : Field) : qualified (toText f) = qualified f := rfl

theorem refers_toText (n : Str) (f : Field) : refers n (toText f) = (f.name == n) := by
  simp [refers, toText]

theorem refersFull_toText (n : Str) (f : Field) :
    refersFull n (toText f) = (f.name == n || qualified f == n) := by
  unfold refersFull
  rw [refers_toText, qualified_toText]

theorem clear_eq {fs : List Field} (hc : Clear fs) {f g : Field} (hf : f ∈ fs) (hg : g ∈ fs)
    (h : g.name = nameOf f ∨ qualified g = nameOf f) : f = g :=
  hc f hf g hg (.inr h)

theorem plain_name {f : Field} (hs : Std f) (hp : Plain f) : nameOf f = f.name := by
  rw [nameOf_std hs]
  unfold qualified
  rcases hp with h | h
  · rcases hs with h' | h'
    · exact absurd h' h
    · rw [h'.2]
  · rw [h]

theorem plain_of_name {f : Field} (hs : Std f) (h : f.name = nameOf f) : Plain f := by
  rw [nameOf_std hs] at h
  unfold qualified at h
  unfold Plain
  cases hsc : f.schema with
  | none => right; rfl
  | some s =>
    rw [hsc] at h
    have := congrArg List.length h
    simp at this
    omega

theorem at?_map {α β} (g : α → β) (l : List α) (i : Int) : at? (l.map g) i = (at? l i).map g := by
  unfold at?
  split
  · rfl
  · simp

/-! ## One reference -/

theorem printRef_eq {d : RelData} {i : Int} {f : Field} (h : at? d.fields i = some f) :
    printRef d i = some (nameOf f) := by
  have h' := at?_append_left (m := d.generated) h
  unfold at? at h'
  unfold printRef
  split
  · rename_i hn; simp [hn] at h'
  · rename_i hn
    simp only [hn, if_false] at h'
    simp [lookup, h']

/-- The data of the parser for the input fields `F` and the generated fields `G`. -/
def textData (agg : Bool) (F G : List Field) (out : List Field) : RelData :=
  ⟨agg, F.map toText, G.map toText, out⟩

/-- A field of the inputs is found by its printed name, unless a generated field has it. -/
theorem readRef_eq {agg : Bool} {F G out : List Field} {f : Field} (hc : Clear F) (hf : f ∈ F)
    (hs : ∀ f ∈ F, Std f) (hg : ∀ g ∈ G, g.name ≠ nameOf f) (hl : (F ++ G).length < 2 ^ 31) :
    ∃ j, readRef (textData agg F G out) (nameOf f) = some j ∧ at? F j = some f := by
  have hG : ∀ g ∈ (textData agg F G out).generated, refers (nameOf f) g = false := by
    intro g' hg'
    obtain ⟨g, hgm, rfl⟩ := List.mem_map.mp hg'
    rw [refers_toText]
    simpa using hg g hgm
  cases hh : findHere false (textData agg F G out) (nameOf f) with
  | none =>
    have := (findHere_none.mp hh).2 (toText f) (List.mem_map.mpr ⟨f, hf, rfl⟩)
    rw [refersFull_toText, nameOf_std (hs f hf)] at this
    simp at this
  | some x =>
    rcases findHere_some hh (by simpa [textData] using hl) with ⟨j, g, h1, h2, _⟩ |
      ⟨_, j, g, h2, h3, _, h5⟩
    · rw [hG g (List.mem_of_getElem? h1)] at h2
      simp at h2
    · have hx := h5 (by simp)
      subst hx
      refine ⟨(x : Int), by simp [readRef, find, hh], ?_⟩
      rw [at?_nat]
      simp only [textData, List.getElem?_map, Option.map_eq_some_iff] at h2
      obtain ⟨g', hg', rfl⟩ := h2
      rw [refersFull_toText] at h3
      rw [hg']
      congr 1
      refine (clear_eq hc hf (List.mem_of_getElem? hg') ?_).symm
      simpa using h3

theorem printRefs_eq {d : RelData} {is : List Int} {fs : List Field}
    (h : is.mapM (at? d.fields) = some fs) : printRefs d is = some (fs.map nameOf) := by
  induction is generalizing fs with
  | nil => simp at h; subst h; rfl
  | cons i is ih =>
    obtain ⟨f, fs', h1, h2, rfl⟩ := mapM_cons_some.mp h
    unfold printRefs at ih ⊢
    exact mapM_cons_some.mpr ⟨_, _, printRef_eq h1, ih h2, rfl⟩

theorem readRefs_eq {agg : Bool} {F G out fs : List Field} (hc : Clear F)
    (hs : ∀ f ∈ F, Std f) (hl : (F ++ G).length < 2 ^ 31) (hf : ∀ f ∈ fs, f ∈ F)
    (hg : ∀ f ∈ fs, ∀ g ∈ G, g.name ≠ nameOf f) :
    ∃ js, readRefs (textData agg F G out) (fs.map nameOf) = some js ∧
      js.mapM (at? F) = some fs := by
  induction fs with
  | nil => exact ⟨[], rfl, rfl⟩
  | cons f fs ih =>
    obtain ⟨j, h1, h2⟩ := readRef_eq (agg := agg) (out := out) hc (hf f (by simp)) hs
      (hg f (by simp)) hl
    obtain ⟨js, h3, h4⟩ := ih (fun g h => hf g (by simp [h])) (fun g h => hg g (by simp [h]))
    refine ⟨j :: js, ?_, mapM_cons_some.mpr ⟨_, _, h2, h4, rfl⟩⟩
    unfold readRefs at h3 ⊢
    rw [List.map_cons]
    exact mapM_cons_some.mpr ⟨_, _, h1, h3, rfl⟩

theorem pickOrigins_eq {F fs : List Field} {is : List Int} (h : is.mapM (at? F) = some fs) :
    pickOrigins F is = some (fs.map Field.id) := by
  simp [pickOrigins, h]

theorem pickOrigins_some {F : List Field} {is : List Int} {os : List Origin}
    (h : pickOrigins F is = some os) :
    ∃ fs, is.mapM (at? F) = some fs ∧ os = fs.map Field.id ∧ ∀ f ∈ fs, f ∈ F := by
  unfold pickOrigins at h
  rw [Option.map_eq_some_iff] at h
  obtain ⟨fs, h1, h2⟩ := h
  refine ⟨fs, h1, h2.symm, ?_⟩
  clear h2
  induction is generalizing fs with
  | nil => simp at h1; subst h1; simp
  | cons i is ih =>
    obtain ⟨f, fs', h3, h4, rfl⟩ := mapM_cons_some.mp h1
    intro g hg
    rcases List.mem_cons.mp hg with rfl | hg
    · exact at?_mem h3
    · exact ih fs' h4 g hg

/-! ## The expressions of a project -/

/-- The generated field with the number of an expression gives it its name. -/
theorem projectBinary_eq {ν : Naming} {rel : Str} {F : List Field} (hl : F.length < 2 ^ 31)
    {k : Nat} {items : List Item} {xs : List (MItem × Field)} (r : Picked)
    (h : itemsMeaning ν rel F k items = some xs) :
    projectBinary ν rel F k items r = .ok (r.1 ++ xs.map Prod.snd, r.2) := by
  induction items generalizing k xs r with
  | nil => simp [itemsMeaning] at h; subst h; simp [projectBinary]
  | cons it items ih =>
    rw [itemsMeaning] at h
    rw [Option.bind_eq_some_iff] at h
    obtain ⟨x, h1, h2⟩ := h
    rw [Option.map_eq_some_iff] at h2
    obtain ⟨xs', h3, rfl⟩ := h2
    cases it with
    | ref i =>
      simp only [itemMeaning, Option.map_eq_some_iff] at h1
      obtain ⟨f, hf, rfl⟩ := h1
      obtain ⟨h4, h5⟩ := vecAt_asSize hf hl
      rw [projectBinary, if_pos h4, h5]
      simp only [Outcome.bind_ok]
      rw [ih _ h3]
      simp
    | other is =>
      simp only [itemMeaning, Option.map_eq_some_iff] at h1
      obtain ⟨os, _, rfl⟩ := h1
      rw [projectBinary]
      rw [ih _ h3]
      simp

theorem itemsMeaning_std {ν : Naming} {rel : Str} {F : List Field} (hs : ∀ f ∈ F, Std f)
    {k : Nat} {items : List Item} {xs : List (MItem × Field)}
    (h : itemsMeaning ν rel F k items = some xs) : ∀ f ∈ xs.map Prod.snd, Std f := by
  induction items generalizing k xs with
  | nil => simp [itemsMeaning] at h; subst h; simp
  | cons it items ih =>
    rw [itemsMeaning] at h
    rw [Option.bind_eq_some_iff] at h
    obtain ⟨x, h1, h2⟩ := h
    rw [Option.map_eq_some_iff] at h2
    obtain ⟨xs', h3, rfl⟩ := h2
    intro f hf
    simp only [List.map_cons, List.mem_cons] at hf
    rcases hf with rfl | hf
    · cases it with
      | ref i =>
        simp only [itemMeaning, Option.map_eq_some_iff] at h1
        obtain ⟨f, hf, rfl⟩ := h1
        exact hs _ (at?_mem hf)
      | other is =>
        simp only [itemMeaning, Option.map_eq_some_iff] at h1
        obtain ⟨os, _, rfl⟩ := h1
        exact .inr ⟨rfl, rfl⟩
    · exact ih h3 f hf

theorem itemsMeaning_length {ν : Naming} {rel : Str} {F : List Field}
    {k : Nat} {items : List Item} {xs : List (MItem × Field)}
    (h : itemsMeaning ν rel F k items = some xs) : xs.length = items.length := by
  induction items generalizing k xs with
  | nil => simp [itemsMeaning] at h; simp [← h]
  | cons it items ih =>
    rw [itemsMeaning, Option.bind_eq_some_iff] at h
    obtain ⟨x, _, h3⟩ := h
    rw [Option.map_eq_some_iff] at h3
    obtain ⟨xs', h4, rfl⟩ := h3
    simp [ih h4]

/-- A field a project adds comes from its input or is printed as a single identifier. -/
theorem itemsMeaning_mem {ν : Naming} {rel : Str} {F : List Field}
    {k : Nat} {items : List Item} {xs : List (MItem × Field)}
    (h : itemsMeaning ν rel F k items = some xs) : ∀ f ∈ xs.map Prod.snd, f ∈ F ∨ Plain f := by
  induction items generalizing k xs with
  | nil => simp [itemsMeaning] at h; subst h; simp
  | cons it items ih =>
    rw [itemsMeaning] at h
    rw [Option.bind_eq_some_iff] at h
    obtain ⟨x, h1, h2⟩ := h
    rw [Option.map_eq_some_iff] at h2
    obtain ⟨xs', h3, rfl⟩ := h2
    intro f hf
    simp only [List.map_cons, List.mem_cons] at hf
    rcases hf with rfl | hf
    · cases it with
      | ref i =>
        simp only [itemMeaning, Option.map_eq_some_iff] at h1
        obtain ⟨f, hf, rfl⟩ := h1
        exact .inl (at?_mem hf)
      | other is =>
        simp only [itemMeaning, Option.map_eq_some_iff] at h1
        obtain ⟨os, _, rfl⟩ := h1
        exact .inr (.inr rfl)
    · exact ih h3 f hf

/-- Expressions survive: they are printed with the names of the fields, read back, mean the
same, and give the same generated fields. -/
theorem items_roundtrip {ν : Naming} {rel : Str} {F : List Field} (hc : Clear F)
    (hs : ∀ f ∈ F, Std f) (hl : F.length < 2 ^ 31) (d : RelData) (hd : d.fields = F)
    {k : Nat} {items : List Item} {xs : List (MItem × Field)}
    (h : itemsMeaning ν rel F k items = some xs)
    (hgen : ∀ j x, xs[j]? = some x → d.generated[k + j]? = some x.2) :
    ∃ ts js, printItems d k items = some ts ∧
      ts.mapM (readItem (textData false F [] [])) = some js ∧
      itemsMeaning ν rel F k js = some xs ∧
      ∀ g, projectText ν rel (F.map toText) k (js.zip ts) g =
        .ok (g ++ xs.map (fun x => toText x.2)) := by
  induction items generalizing k xs with
  | nil =>
    simp [itemsMeaning] at h
    subst h
    exact ⟨[], [], rfl, rfl, rfl, by simp [projectText]⟩
  | cons it items ih =>
    rw [itemsMeaning] at h
    rw [Option.bind_eq_some_iff] at h
    obtain ⟨x, h1, h2⟩ := h
    rw [Option.map_eq_some_iff] at h2
    obtain ⟨xs', h3, rfl⟩ := h2
    obtain ⟨ts, js, p1, p2, p3, p4⟩ := ih h3 (fun j y hy => by
      have := hgen (j + 1) y (by simpa using hy)
      rw [← this]; congr 1; omega)
    have hk : d.generated[k]? = some x.2 := by simpa using hgen 0 x rfl
    cases it with
    | ref i =>
      simp only [itemMeaning, Option.map_eq_some_iff] at h1
      obtain ⟨f, hf, rfl⟩ := h1
      obtain ⟨j, q1, q2⟩ := readRef_eq (agg := false) (G := []) (out := []) hc (at?_mem hf) hs
        (by simp) (by simpa using hl)
      have hp : printRef d i = some (nameOf f) := printRef_eq (by rw [hd]; exact hf)
      obtain ⟨t, ht, hcol⟩ : ∃ t, printItem d d.generated[k]? (.ref i) = some t ∧
          ∃ n, t = .col (nameOf f) n := by
        rw [printItem, hp]
        exact ⟨_, rfl, _, rfl⟩
      obtain ⟨n, rfl⟩ := hcol
      refine ⟨.col (nameOf f) n :: ts, .ref j :: js, ?_, ?_, ?_, ?_⟩
      · simp [printItems, ht, p1]
      · exact mapM_cons_some.mpr ⟨_, _, by simp [readItem, q1], p2, rfl⟩
      · simp [itemsMeaning, itemMeaning, q2, p3]
      · intro g
        obtain ⟨h4, h5⟩ := vecAt_asSize (l := F.map toText) (i := j) (f := toText f)
          (by rw [at?_map, q2]; rfl) (by simpa using hl)
        rw [List.zip_cons_cons, projectText, if_pos h4, h5]
        simp only [Outcome.bind_ok]
        rw [p4]
        simp
    | other is =>
      simp only [itemMeaning, Option.map_eq_some_iff] at h1
      obtain ⟨os, ho, rfl⟩ := h1
      obtain ⟨fs, hf, rfl, hmem⟩ := pickOrigins_some ho
      obtain ⟨ks, q1, q2⟩ := readRefs_eq (agg := false) (G := []) (out := []) hc hs
        (by simpa using hl) hmem (by simp)
      have hp : printRefs d is = some (fs.map nameOf) := printRefs_eq (by rw [hd]; exact hf)
      let n : Option Str := if (ν (.computed rel k)).isEmpty then none else some (ν (.computed rel k))
      have ht : printItem d d.generated[k]? (.other is) = some (.other (fs.map nameOf) n) := by
        rw [printItem, hp, hk]
        rfl
      have hn : n.getD (ν (.computed rel k)) = ν (.computed rel k) := by
        simp only [n]; split <;> rfl
      refine ⟨.other (fs.map nameOf) n :: ts, .other ks :: js, ?_, ?_, ?_, ?_⟩
      · simp [printItems, ht, p1]
      · exact mapM_cons_some.mpr ⟨_, _, by simp [readItem, q1], p2, rfl⟩
      · simp [itemsMeaning, itemMeaning, pickOrigins_eq q2, p3]
      · intro g
        rw [List.zip_cons_cons, projectText]
        simp only [hn]
        rw [p4]
        simp [toText]

/-! ## Groupings and measures -/

theorem groupBinary_eq {ν : Naming} {rel : Str} {F : List Field} (hl : F.length < 2 ^ 31)
    {k : Nat} {items : List Item} {xs : List (MItem × Field)} (r : Picked)
    (hrefs : ∀ it ∈ items, ∃ i, it = .ref i)
    (h : itemsMeaning ν rel F k items = some xs) :
    groupBinary F items r = .ok (r.1 ++ xs.map Prod.snd, r.2) := by
  induction items generalizing k xs r with
  | nil => simp [itemsMeaning] at h; subst h; simp [groupBinary]
  | cons it items ih =>
    rw [itemsMeaning] at h
    rw [Option.bind_eq_some_iff] at h
    obtain ⟨x, h1, h2⟩ := h
    rw [Option.map_eq_some_iff] at h2
    obtain ⟨xs', h3, rfl⟩ := h2
    obtain ⟨i, rfl⟩ := hrefs it (by simp)
    simp only [itemMeaning, Option.map_eq_some_iff] at h1
    obtain ⟨f, hf, rfl⟩ := h1
    obtain ⟨h4, h5⟩ := vecAt_asSize hf hl
    rw [groupBinary, if_neg (by omega), h5]
    simp only [Outcome.bind_ok]
    rw [ih _ (fun it h => hrefs it (by simp [h])) h3]
    simp

theorem groups_roundtrip {ν : Naming} {rel : Str} {F : List Field} (hc : Clear F)
    (hs : ∀ f ∈ F, Std f) (d : RelData) (hd : d.fields = F)
    {k : Nat} {items : List Item} {xs : List (MItem × Field)}
    (hrefs : ∀ it ∈ items, ∃ i, it = .ref i)
    (h : itemsMeaning ν rel F k items = some xs) (G : List Field) (hG : ∀ g ∈ G, g ∈ F)
    (honce : ((G ++ xs.map Prod.snd).filter fun f => decide (Plain f)).Nodup)
    (hl : (F ++ G ++ xs.map Prod.snd).length < 2 ^ 31) :
    ∃ ts js, items.mapM (printGroup d) = some ts ∧
      groupText (textData true F G []) ts =
        .ok (some (textData true F (G ++ xs.map Prod.snd) [], js)) ∧
      itemsMeaning ν rel F k js = some xs ∧ (∀ it ∈ js, ∃ i, it = .ref i) ∧
      js.length = items.length := by
  induction items generalizing k xs G with
  | nil =>
    simp [itemsMeaning] at h
    subst h
    exact ⟨[], [], rfl, by simp [groupText], rfl, by simp, rfl⟩
  | cons it items ih =>
    rw [itemsMeaning] at h
    rw [Option.bind_eq_some_iff] at h
    obtain ⟨x, h1, h2⟩ := h
    rw [Option.map_eq_some_iff] at h2
    obtain ⟨xs', h3, rfl⟩ := h2
    obtain ⟨i, rfl⟩ := hrefs it (by simp)
    simp only [itemMeaning, Option.map_eq_some_iff] at h1
    obtain ⟨f, hf, rfl⟩ := h1
    have hfF : f ∈ F := at?_mem hf
    have hsplit : G ++ List.map Prod.snd ((MItem.ref f.id, f) :: xs') =
        (G ++ [f]) ++ xs'.map Prod.snd := by simp
    rw [hsplit] at honce
    have hsplit' : F ++ G ++ List.map Prod.snd ((MItem.ref f.id, f) :: xs') =
        F ++ (G ++ [f]) ++ xs'.map Prod.snd := by simp
    rw [hsplit'] at hl
    obtain ⟨ts, js, p1, p2, p3, p4, p5⟩ := ih (fun it h => hrefs it (by simp [h])) h3 (G ++ [f])
      (by
        intro g hg
        rcases List.mem_append.mp hg with hg | hg
        · exact hG g hg
        · simp at hg; subst hg; exact hfF) honce hl
    have hg : ∀ g ∈ G, g.name ≠ nameOf f := by
      intro g hg hn
      have he : f = g := clear_eq hc hfF (hG g hg) (.inl hn)
      subst he
      have hp := plain_of_name (hs f hfF) hn
      rw [List.filter_append, List.filter_append, List.nodup_append] at honce
      obtain ⟨h6, _, _⟩ := honce
      rw [List.nodup_append] at h6
      exact h6.2.2 f (by simp [hg, hp]) f (by simp [hp]) rfl
    obtain ⟨j, q1, q2⟩ := readRef_eq (agg := true) (G := G) (out := []) hc hfF hs hg (by
      simp only [List.length_append] at hl ⊢; omega)
    have hp : printRef d i = some (nameOf f) := printRef_eq (by rw [hd]; exact hf)
    refine ⟨.col (nameOf f) none :: ts, .ref j :: js, ?_, ?_, ?_, ?_, by simp [p5]⟩
    · exact mapM_cons_some.mpr ⟨_, _, by simp [printGroup, hp], p1, rfl⟩
    · have hv := (vecAt_asSize (l := F.map toText) (i := j) (f := toText f)
        (by rw [at?_map, q2]; rfl)
        (by simp only [List.length_append, List.length_map] at hl ⊢; omega)).2
      rw [groupText]
      have hri : readItem (textData true F G []) (.col (nameOf f) none) = some (.ref j) := by
        simp [readItem, q1]
      rw [hri]
      simp only
      rw [show (textData true F G []).fields = F.map toText from rfl, hv, Outcome.bind_ok]
      have he : (⟨(textData true F G []).aggregate, F.map toText,
          (textData true F G []).generated ++ [toText f], (textData true F G []).output⟩ : RelData) =
          textData true F (G ++ [f]) [] := by simp [textData]
      rw [he, p2]
      simp
    · simp [itemsMeaning, itemMeaning, q2, p3]
    · intro it hit
      rcases List.mem_cons.mp hit with rfl | hit
      · exact ⟨j, rfl⟩
      · exact p4 it hit

/-- The measures `k`, `k + 1`, ... -/
def measuresFrom (ν : Naming) (rel : Str) (k n : Nat) : List Field :=
  (List.range' k n).map fun k => ⟨.measure rel k, ν (.measure rel k), [], none⟩

theorem measureFields_eq (ν : Naming) (rel : Str) (n : Nat) :
    measureFields ν rel n = measuresFrom ν rel 0 n := by
  simp [measureFields, measuresFrom, List.range_eq_range']

theorem measures_roundtrip {ν : Naming} {rel : Str} {F A : List Field} (hc : Clear (F ++ A))
    (hs : ∀ f ∈ F, Std f) (d : RelData) (hd : d.fields = F)
    {k : Nat} {ms : List (List Int)} {os : List (List Origin)} (h : pickLists F ms = some os)
    (G : List Field) (hG : ∀ g ∈ G ++ measuresFrom ν rel k ms.length, g ∈ A)
    (hap : ∀ f ∈ ms.flatten.filterMap (at? F), Plain f → f ∉ A)
    (hl : (F ++ G).length + ms.length < 2 ^ 31) :
    ∃ ts js, printMeasures ν rel d k ms = some ts ∧
      measureText rel k (textData true F G []) ts =
        some (textData true F (G ++ measuresFrom ν rel k ms.length) [], js) ∧
      pickLists F js = some os ∧ js.length = ms.length := by
  induction ms generalizing k os G with
  | nil =>
    simp [pickLists] at h
    subst h
    exact ⟨[], [], rfl, by simp [measureText, measuresFrom], rfl, rfl⟩
  | cons m ms ih =>
    rw [pickLists, Option.bind_eq_some_iff] at h
    obtain ⟨o, h1, h2⟩ := h
    rw [Option.map_eq_some_iff] at h2
    obtain ⟨os', h3, rfl⟩ := h2
    obtain ⟨fs, hf, rfl, hmem⟩ := pickOrigins_some h1
    let x : Field := ⟨.measure rel k, ν (.measure rel k), [], none⟩
    have hfrom : measuresFrom ν rel k (m :: ms).length =
        x :: measuresFrom ν rel (k + 1) ms.length := by
      simp [measuresFrom, List.range'_succ, x]
    rw [hfrom] at hG ⊢
    have hused : ∀ f ∈ fs, Plain f → f ∉ A := by
      intro f hfm
      refine hap f ?_
      rw [List.flatten_cons, List.filterMap_append, filterMap_of_mapM hf]
      exact List.mem_append_left _ hfm
    have hg : ∀ f ∈ fs, ∀ g ∈ G, g.name ≠ nameOf f := by
      intro f hfm g hgm hn
      have hgA : g ∈ A := hG g (by simp [hgm])
      have he : f = g := clear_eq hc (by simp [hmem f hfm]) (by simp [hgA]) (.inl hn)
      subst he
      exact hused f hfm (plain_of_name (hs f (hmem f hfm)) hn) hgA
    have hcF : Clear F := fun f hf g hg => hc f (by simp [hf]) g (by simp [hg])
    obtain ⟨is, q1, q2⟩ := readRefs_eq (agg := true) (G := G) (out := []) hcF hs
      (by omega) hmem hg
    have hp : printRefs d m = some (fs.map nameOf) := printRefs_eq (by rw [hd]; exact hf)
    obtain ⟨ts, js, p1, p2, p3, p4⟩ := ih h3 (G ++ [x]) (by simpa using hG)
      (fun f hfm => hap f (by
        rw [List.flatten_cons, List.filterMap_append]
        exact List.mem_append_right _ hfm))
      (by simp only [List.length_append, List.length_cons, List.length_nil] at hl ⊢; omega)
    refine ⟨(fs.map nameOf, ν (.measure rel k)) :: ts, is :: js, ?_, ?_, ?_, by simp [p4]⟩
    · simp [printMeasures, hp, p1]
    · rw [measureText, q1]
      have he : (⟨(textData true F G []).aggregate, (textData true F G []).fields,
          (textData true F G []).generated ++ [x], (textData true F G []).output⟩ : RelData) =
          textData true F (G ++ [x]) [] := by simp [textData, toText, x]
      simp only [Option.bind_some]
      rw [he, p2]
      simp
    · simp [pickLists, pickOrigins_eq q2, p3]

/-! ## One relation -/

theorem columnFields_std (rel s : Str) (cols : List Str) :
    ∀ f ∈ columnFields rel s cols, f.alias = [] := by
  intro f hf
  unfold columnFields at hf
  obtain ⟨c, _, rfl⟩ := List.mem_map.mp hf
  rfl

theorem toText_columns (rel s : Str) (cols : List Str) :
    (columnFields rel s cols).map toText = columnFields rel s cols := by
  rw [List.map_congr_left (g := id)]
  · simp
  · intro f hf
    have := columnFields_std rel s cols f hf
    cases f
    simp only [toText, id]
    simp_all

theorem measures_std (ν : Naming) (rel : Str) (n : Nat) :
    ∀ f ∈ measureFields ν rel n, f.alias = [] ∧ f.schema = none := by
  intro f hf
  unfold measureFields at hf
  obtain ⟨c, _, rfl⟩ := List.mem_map.mp hf
  exact ⟨rfl, rfl⟩

theorem opMeaning_std {ν : Naming} {rel : Str} {F new : List Field} {op : Op} {mo : MOp}
    (h : opMeaning ν rel F op = some (mo, new)) (hs : ∀ f ∈ F, Std f) : ∀ f ∈ new, Std f := by
  cases op with
  | read s cols =>
    simp only [opMeaning, Option.some.injEq, Prod.mk.injEq] at h
    obtain ⟨_, rfl⟩ := h
    exact fun f hf => .inl (columnFields_std rel s cols f hf)
  | pass is | join is =>
    simp only [opMeaning, Option.map_eq_some_iff, Prod.mk.injEq] at h
    obtain ⟨_, _, _, rfl⟩ := h
    simp
  | project items =>
    simp only [opMeaning, Option.map_eq_some_iff, Prod.mk.injEq] at h
    obtain ⟨xs, h1, _, rfl⟩ := h
    exact itemsMeaning_std hs h1
  | aggregate gs ms =>
    simp only [opMeaning, Option.bind_eq_some_iff, Option.map_eq_some_iff, Prod.mk.injEq] at h
    obtain ⟨xs, h1, os, h2, _, rfl⟩ := h
    intro f hf
    rcases List.mem_append.mp hf with hf | hf
    · exact itemsMeaning_std hs h1 f hf
    · exact .inl (measures_std ν rel ms.length f hf).1

/-- The operation of one relation is printed, read back, and means the same; and both sides
have the same fields. -/
theorem op_roundtrip {ν : Naming} {rel : Str} {F new : List Field} {op : Op} {mo : MOp}
    {emit : List Int} (h : opMeaning ν rel F op = some (mo, new))
    (hleg : LegibleOp ν rel F new emit op) (hl : (F ++ new).length < 2 ^ 31)
    (hs : ∀ f ∈ F, Std f) (ins ins' : List RelData) (hF : inputFields ins = F)
    (hF' : inputFields ins' = F.map toText) :
    ∃ d to d' op', localBinary ν rel op ins = .ok (d, []) ∧ Unmapped d ∧
      unmapped d = opOutput F new op ∧
      exposed d = opOutput F new op ∧
      (∀ out, printOp ν rel { d with output := out } op = some to) ∧
      localText ν rel to ins' = .ok (some (d', op')) ∧
      opMeaning ν rel F op' = some (mo, new) ∧
      (∀ G, opOutput F G op' = opOutput F G op) ∧
      exposed d' = (opOutput F new op).map toText ∧
      ((∃ items, op = .project items) →
        d = ⟨false, F, new, []⟩ ∧ d' = textData false F new []) ∧
      ((∃ gs ms, op = .aggregate gs ms) →
        d = ⟨true, F, new, new⟩ ∧ d' = textData true F new (new.map toText)) := by
  cases op with
  | read s cols =>
    simp only [opMeaning, Option.some.injEq, Prod.mk.injEq] at h
    obtain ⟨rfl, rfl⟩ := h
    refine ⟨_, _, _, _, rfl, rfl, ?_, by simp [exposed, opOutput], fun _ => rfl, rfl, rfl,
      fun _ => rfl, ?_, by simp,
      by simp⟩
    · simp [unmapped, opOutput]
    · simp only [opOutput, toText_columns, exposed]
      split
      · rename_i he; simp at he; simp [he]
      · rfl
  | pass is =>
    simp only [opMeaning, Option.map_eq_some_iff, Prod.mk.injEq] at h
    obtain ⟨os, h1, rfl, rfl⟩ := h
    obtain ⟨fs, hf, rfl, hmem⟩ := pickOrigins_some h1
    obtain ⟨_, hc⟩ := hleg
    obtain ⟨js, q1, q2⟩ := readRefs_eq (agg := false) (G := []) (out := []) hc hs (by simpa using hl)
      hmem (by simp)
    refine ⟨⟨false, F, [], []⟩, .pass (fs.map nameOf), textData false F [] [], .pass js, ?_, rfl, ?_,
      by simp [exposed, opOutput], ?_, ?_, ?_, fun _ => rfl, ?_, by simp, by simp⟩
    · simp [localBinary, hF]
    · simp [unmapped, opOutput]
    · intro out
      simp [printOp, printRefs_eq (d := ⟨false, F, [], out⟩) hf]
    · unfold textData at q1
      simp only [List.map_nil] at q1
      simp [localText, hF', q1, textData]
    · simp [opMeaning, pickOrigins_eq q2]
    · simp [exposed, textData, opOutput]
  | join is =>
    simp only [opMeaning, Option.map_eq_some_iff, Prod.mk.injEq] at h
    obtain ⟨os, h1, rfl, rfl⟩ := h
    obtain ⟨fs, hf, rfl, hmem⟩ := pickOrigins_some h1
    obtain ⟨_, hc⟩ := hleg
    obtain ⟨js, q1, q2⟩ := readRefs_eq (agg := false) (G := []) (out := []) hc hs (by simpa using hl)
      hmem (by simp)
    refine ⟨⟨false, F, [], []⟩, .join (fs.map nameOf), textData false F [] [], .join js, ?_, rfl, ?_,
      by simp [exposed, opOutput], ?_, ?_, ?_, fun _ => rfl, ?_, by simp, by simp⟩
    · simp [localBinary, hF]
    · simp [unmapped, opOutput]
    · intro out
      simp [printOp, printRefs_eq (d := ⟨false, F, [], out⟩) hf]
    · unfold textData at q1
      simp only [List.map_nil] at q1
      simp [localText, hF', q1, textData]
    · simp [opMeaning, pickOrigins_eq q2]
    · simp [exposed, textData, opOutput]
  | project items =>
    simp only [opMeaning, Option.map_eq_some_iff, Prod.mk.injEq] at h
    obtain ⟨xs, h1, rfl, rfl⟩ := h
    have hc : Clear F := fun f hf g hg => hleg f (by simp [hf]) g (by simp [hg])
    have hlF : F.length < 2 ^ 31 := by simp only [List.length_append] at hl; omega
    have key := fun out => items_roundtrip hc hs hlF ⟨false, F, xs.map Prod.snd, out⟩ rfl h1
      (by intro j x hx; simp [hx])
    obtain ⟨ts, js, p1, p2, p3, p4⟩ := key []
    refine ⟨⟨false, F, xs.map Prod.snd, []⟩, .project ts, textData false F (xs.map Prod.snd) [],
      .project js, ?_, rfl, ?_, by simp [exposed, opOutput], ?_, ?_, ?_, fun _ => rfl, ?_, fun _ => ⟨rfl, rfl⟩,
      by simp⟩
    · simp [localBinary, hF, projectBinary_eq hlF ([], []) h1]
    · simp [unmapped, opOutput]
    · intro out
      obtain ⟨ts', _, p1', _⟩ := key out
      have hi : ∀ (k : Nat) (l : List Item), printItems ⟨false, F, xs.map Prod.snd, out⟩ k l =
          printItems ⟨false, F, xs.map Prod.snd, []⟩ k l := by
        intro k l
        induction l generalizing k with
        | nil => rfl
        | cons it l ih =>
          rw [printItems, printItems, ih]
          congr 1
      simp [printOp, hi, p1]
    · unfold textData at p2
      simp only [List.map_nil] at p2
      simp [localText, hF', p2, p4, textData, List.map_map, Function.comp_def]
    · simp [opMeaning, p3]
    · simp [exposed, textData, opOutput]
  | aggregate gs ms =>
    simp only [opMeaning, Option.bind_eq_some_iff, Option.map_eq_some_iff, Prod.mk.injEq] at h
    obtain ⟨xs, h1, os, h2, rfl, rfl⟩ := h
    obtain ⟨hc, _, hrefs, hsome, honce, hap⟩ := hleg
    have hlen : xs.length = gs.length := itemsMeaning_length h1
    have htake : (xs.map Prod.snd ++ measureFields ν rel ms.length).take gs.length =
        xs.map Prod.snd := by
      rw [List.take_append_of_le_length (by simp [hlen]), List.take_of_length_le (by simp [hlen])]
    rw [htake] at hsome honce hap
    have hcF : Clear F := fun f hf g hg => hc f (by simp [hf]) g (by simp [hg])
    have hml : (measureFields ν rel ms.length).length = ms.length := by simp [measureFields]
    have hlF : F.length < 2 ^ 31 := by simp only [List.length_append] at hl; omega
    let new := xs.map Prod.snd ++ measureFields ν rel ms.length
    have key := fun out => groups_roundtrip hcF hs ⟨true, F, new, out⟩ rfl hrefs h1 []
      (by simp) (by simpa using honce) (by simp only [List.length_append] at hl ⊢; simp; simp at hl; omega)
    have key2 := fun out => measures_roundtrip (A := new) hc hs ⟨true, F, new, out⟩ rfl h2
      (k := 0) (xs.map Prod.snd)
      (by intro g hg; rw [← measureFields_eq] at hg; exact hg) hap
      (by simp only [List.length_append, hml] at hl ⊢; omega)
    obtain ⟨ts, js, p1, p2, p3, p4, p5⟩ := key []
    obtain ⟨us, ks, r1, r2, r3, r4⟩ := key2 []
    simp only [List.nil_append] at p2
    rw [← measureFields_eq] at r2
    refine ⟨⟨true, F, new, new⟩, .aggregate ts us, textData true F new (new.map toText),
      .aggregate js ks, ?_, rfl, ?_, ?_, ?_, ?_, ?_, fun _ => rfl, ?_, by simp, fun _ => ⟨rfl, rfl⟩⟩
    · simp [localBinary, hF, groupBinary_eq hlF ([], []) hrefs h1, new]
    · simp [unmapped, opOutput, new]
    · have : new ≠ [] := hsome
      simp [exposed, this, opOutput, new]
    · intro out
      have hg : ∀ it, printGroup ⟨true, F, new, out⟩ it = printGroup ⟨true, F, new, []⟩ it := by
        intro it; cases it <;> rfl
      have hm : ∀ k l, printMeasures ν rel ⟨true, F, new, out⟩ k l =
          printMeasures ν rel ⟨true, F, new, []⟩ k l := by
        intro k l
        induction l generalizing k with
        | nil => rfl
        | cons it l ih => rw [printMeasures, printMeasures, ih]; congr 1
      simp only [printOp, hm, r1]
      rw [show printGroup ⟨true, F, new, out⟩ = printGroup ⟨true, F, new, []⟩ from funext hg, p1]
      rfl
    · have : inputFields ins' = F.map toText := hF'
      simp only [localText, this]
      rw [show (⟨true, F.map toText, [], []⟩ : RelData) = textData true F [] [] by simp [textData],
        p2]
      simp only [Outcome.map_ok, Option.bind_some, r2, Option.map_some]
      rfl
    · simp [opMeaning, p3, r3, r4]
    · have : new ≠ [] := hsome
      simp only [exposed, textData, List.isEmpty_iff, List.map_eq_nil_iff, this, if_false, opOutput]
      rfl

/-! ## Output mappings -/

/-- The emitted fields are printed and found again, though perhaps under another number. -/
theorem emit_project {F new : List Field} (hc : Clear (F ++ new)) (hs : ∀ f ∈ F, Std f)
    (hs' : ∀ f ∈ new, Std f) (hin : ∀ f ∈ new, f ∈ F ∨ Plain f)
    (hl : (F ++ new).length < 2 ^ 31) (d : RelData) (hd : d.aggregate = false) (hdf : d.fields = F)
    (hdg : d.generated = new) {emit : List Int} {es : List Field}
    (h : emit.mapM (at? (F ++ new)) = some es) :
    ∃ ns js, emit.mapM (printEmit d) = some ns ∧
      ns.mapM (readEmit (textData false F new [])) = some js ∧
      js.mapM (at? (F ++ new)) = some es := by
  induction emit generalizing es with
  | nil => simp at h; subst h; exact ⟨[], [], rfl, rfl, rfl⟩
  | cons i emit ih =>
    obtain ⟨f, es', h1, h2, rfl⟩ := mapM_cons_some.mp h
    obtain ⟨ns, js, p1, p2, p3⟩ := ih h2
    have hp : printEmit d i = some (nameOf f) := by
      unfold at? at h1
      unfold printEmit
      split
      · rename_i hn; simp [hn] at h1
      · rename_i hn
        simp only [hn, if_false] at h1
        simp [lookupEmit, hd, hdf, hdg, h1]
    have hfm : f ∈ F ++ new := at?_mem h1
    have hsf : Std f := by
      rcases List.mem_append.mp hfm with h | h
      · exact hs f h
      · exact hs' f h
    have hr : ∃ j, readEmit (textData false F new []) (nameOf f) = some j ∧
        at? (F ++ new) j = some f := by
      cases hh : findHere true (textData false F new []) (nameOf f) with
      | none =>
        exfalso
        obtain ⟨h3, h4⟩ := findHere_none.mp hh
        have hF : f ∉ F := by
          intro hf
          have := h4 (toText f) (List.mem_map.mpr ⟨f, hf, rfl⟩)
          rw [refersFull_toText, nameOf_std hsf] at this
          simp at this
        have hn : f ∈ new := (List.mem_append.mp hfm).resolve_left hF
        have := h3 (toText f) (List.mem_map.mpr ⟨f, hn, rfl⟩)
        rw [refers_toText, plain_name hsf ((hin f hn).resolve_left hF)] at this
        simp at this
      | some x =>
        refine ⟨(x : Int), by simp [readEmit, find, hh], ?_⟩
        rw [at?_nat]
        rcases findHere_some hh (by simpa [textData] using hl) with ⟨j, g, h3, h4, h5, _⟩ |
          ⟨_, j, g, h3, h4, _, h5⟩
        · simp only [textData, List.getElem?_map, Option.map_eq_some_iff] at h3
          obtain ⟨g', hg', rfl⟩ := h3
          rw [refers_toText] at h4
          have hgm : g' ∈ F ++ new := by simp [List.mem_of_getElem? hg']
          have he : f = g' := clear_eq hc hfm hgm (.inl (by simpa using h4))
          subst he
          have hx : x = F.length + j := by simpa [textData] using h5
          rw [hx, List.getElem?_append_right (by omega)]
          simpa using hg'
        · have hx := h5 (by simp [textData])
          subst hx
          simp only [textData, List.getElem?_map, Option.map_eq_some_iff] at h3
          obtain ⟨g', hg', rfl⟩ := h3
          rw [refersFull_toText] at h4
          have hgm : g' ∈ F ++ new := by simp [List.mem_of_getElem? hg']
          have he : f = g' := clear_eq hc hfm hgm (by simpa using h4)
          subst he
          rw [List.getElem?_append_left (List.getElem?_eq_some_iff.mp hg').1]
          exact hg'
    obtain ⟨j, h3, h4⟩ := hr
    exact ⟨nameOf f :: ns, j :: js, mapM_cons_some.mpr ⟨_, _, hp, p1, rfl⟩,
      mapM_cons_some.mpr ⟨_, _, h3, p2, rfl⟩, mapM_cons_some.mpr ⟨_, _, h4, p3, rfl⟩⟩

theorem emit_aggregate {F new out : List Field} (hc : Clear (F ++ new)) (hs' : ∀ f ∈ new, Std f)
    (hl : (F ++ new).length < 2 ^ 31) (d : RelData) (hd : d.aggregate = true)
    (hdg : d.generated = new) {emit : List Int} {es : List Field}
    (h : emit.mapM (at? new) = some es) (hp : ∀ f ∈ es, Plain f) :
    ∃ ns js, emit.mapM (printEmit d) = some ns ∧
      ns.mapM (readEmit (textData true F new out)) = some js ∧
      js.mapM (at? new) = some es := by
  induction emit generalizing es with
  | nil => simp at h; subst h; exact ⟨[], [], rfl, rfl, rfl⟩
  | cons i emit ih =>
    obtain ⟨f, es', h1, h2, rfl⟩ := mapM_cons_some.mp h
    obtain ⟨ns, js, p1, p2, p3⟩ := ih h2 (fun f hf => hp f (by simp [hf]))
    have hpr : printEmit d i = some (nameOf f) := by
      unfold at? at h1
      unfold printEmit
      split
      · rename_i hn; simp [hn] at h1
      · rename_i hn
        simp only [hn, if_false] at h1
        simp [lookupEmit, hd, hdg, h1]
    have hfm : f ∈ new := at?_mem h1
    have hsf : Std f := hs' f hfm
    have hr : ∃ j, readEmit (textData true F new out) (nameOf f) = some j ∧
        at? new j = some f := by
      cases hh : findHere true (textData true F new out) (nameOf f) with
      | none =>
        exfalso
        have := (findHere_none.mp hh).1 (toText f) (List.mem_map.mpr ⟨f, hfm, rfl⟩)
        rw [refers_toText, plain_name hsf (hp f (by simp))] at this
        simp at this
      | some x =>
        refine ⟨(x : Int), by simp [readEmit, find, hh], ?_⟩
        rw [at?_nat]
        rcases findHere_some hh (by simpa [textData] using hl) with ⟨j, g, h3, h4, h5, _⟩ |
          ⟨h3, _⟩
        · simp only [textData, List.getElem?_map, Option.map_eq_some_iff] at h3
          obtain ⟨g', hg', rfl⟩ := h3
          rw [refers_toText] at h4
          have hgm : g' ∈ new := List.mem_of_getElem? hg'
          have he : f = g' := clear_eq hc (by simp [hfm]) (by simp [hgm])
            (.inl (by simpa using h4))
          subst he
          have hx : x = j := by simpa [textData] using h5
          rw [hx]
          exact hg'
        · exfalso
          have := h3 (toText f) (List.mem_map.mpr ⟨f, hfm, rfl⟩)
          rw [refers_toText, plain_name hsf (hp f (by simp))] at this
          simp at this
    obtain ⟨j, h3, h4⟩ := hr
    exact ⟨nameOf f :: ns, j :: js, mapM_cons_some.mpr ⟨_, _, hpr, p1, rfl⟩,
      mapM_cons_some.mpr ⟨_, _, h3, p2, rfl⟩, mapM_cons_some.mpr ⟨_, _, h4, p3, rfl⟩⟩

theorem mapM_eq_nil {α β} {f : α → Option β} {l : List α} (h : l.mapM f = some []) : l = [] := by
  cases l with
  | nil => rfl
  | cons a l =>
    obtain ⟨_, _, _, _, h3⟩ := mapM_cons_some.mp h
    simp at h3

/-- A mapping that is all in range, applied to an unmapped schema. -/
theorem apply_ok {d : RelData} {is : List Int} {es : List Field} (hd : Unmapped d)
    (h : is.mapM (at? (unmapped d)) = some es) (hl : (unmapped d).length < 2 ^ 31) :
    ∃ out, applyText d is = .ok ({ d with output := out }, []) ∧
      exposed { d with output := out } = if es.isEmpty then exposed d else es := by
  by_cases hne : is = []
  · subst hne
    simp at h
    subst h
    exact ⟨d.output, rfl, rfl⟩
  · have hr : ∀ i ∈ is, InRange (unmapped d) i := fun i hi => by
      obtain ⟨b, _, hb⟩ := mapM_mem h i hi
      exact at?_some_inRange hb
    have hi : ∀ i ∈ is, IsInt32 i := fun i h => by
      have := hr i h
      unfold InRange at this
      unfold IsInt32
      omega
    have hes : es ≠ [] := fun h0 => hne (mapM_eq_nil (h0 ▸ h))
    refine ⟨es, ?_, by simp [exposed, hes]⟩
    rw [applyText_eq hd hne hi hl, filterMap_of_mapM h]
    congr 2
    rw [List.filter_eq_nil_iff]
    intro i h
    simp [hr i h]

/-! ## Trees -/

theorem meaning_std_step {ν : Naming} {rel : Str} {op : Op} {F new : List Field} {mo : MOp}
    (h : opMeaning ν rel F op = some (mo, new)) (hs : ∀ f ∈ F, Std f) :
    ∀ f ∈ opOutput F new op, Std f := by
  have hn := opMeaning_std h hs
  intro f hf
  cases op <;> simp only [opOutput, List.mem_append] at hf
  case read => exact hn f hf
  case aggregate => exact hn f hf
  all_goals
    rcases hf with hf | hf
    · exact hs f hf
    · exact hn f hf

/-- Operations with the same meaning are of the same kind. -/
theorem opMeaning_kind {ν : Naming} {rel : Str} {F new : List Field} {op op' : Op} {mo : MOp}
    (h : opMeaning ν rel F op = some (mo, new)) (h' : opMeaning ν rel F op' = some (mo, new)) :
    opOutput F new op' = opOutput F new op := by
  cases op <;> cases op' <;>
    simp only [opMeaning, Option.some.injEq, Prod.mk.injEq, Option.map_eq_some_iff,
      Option.bind_eq_some_iff] at h h' <;> first | rfl | skip
  all_goals
    exfalso
    grind

/-- One relation: from the fields of its inputs to its own on both sides. -/
theorem step_roundtrip {ν : Naming} {rel : Str} {F new : List Field} {op : Op} {mo : MOp}
    {emit : List Int} {es : List Field} (h : opMeaning ν rel F op = some (mo, new))
    (he : emit.mapM (at? (opOutput F new op)) = some es)
    (hleg : LegibleOp ν rel F new emit op) (hl : (F ++ new).length < 2 ^ 31)
    (hs : ∀ f ∈ F, Std f) (ins ins' : List RelData) (hF : inputFields ins = F)
    (hF' : inputFields ins' = F.map toText) :
    ∃ d to ns d' op' js, stepBinary ν rel op emit ins = .ok (d, []) ∧
      exposed d = (if es.isEmpty then opOutput F new op else es) ∧
      printOp ν rel d op = some to ∧ printEmits d op emit = some ns ∧
      stepText ν rel to ns ins' = .ok (some (d', op', js)) ∧
      exposed d' = (if es.isEmpty then opOutput F new op else es).map toText ∧
      opMeaning ν rel F op' = some (mo, new) ∧
      js.mapM (at? (opOutput F new op')) = some es := by
  obtain ⟨d, to, d', op', b1, b2, b3, b4, b5, b6, b7, b8, b9, b10, b11⟩ :=
    op_roundtrip h hleg hl hs ins ins' hF hF'
  have hlo : (opOutput F new op).length < 2 ^ 31 := by
    rw [List.length_append] at hl
    cases op <;> simp only [opOutput, List.length_append] <;> omega
  obtain ⟨out, a1, a2⟩ := apply_ok b2 (by rw [b3]; exact he) (by rw [b3]; exact hlo)
  have hbin : stepBinary ν rel op emit ins = .ok ({ d with output := out }, []) := by
    simp [stepBinary, b1, applyBinary_eq_text b2, a1]
  have hs' := opMeaning_std h hs
  -- the output mapping on the other side
  have hem : ∃ ns js, printEmits { d with output := out } op emit = some ns ∧
      ns.mapM (readEmit d') = some js ∧ js.mapM (at? (opOutput F new op)) = some es ∧
      ∃ out', applyText d' js = .ok ({ d' with output := out' }, []) ∧
        exposed { d' with output := out' } =
          (if es.isEmpty then opOutput F new op else es).map toText := by
    have hnil : emit = [] → printEmits { d with output := out } op emit = some [] →
        ∃ ns js, printEmits { d with output := out } op emit = some ns ∧
        ns.mapM (readEmit d') = some js ∧ js.mapM (at? (opOutput F new op)) = some es ∧
        ∃ out', applyText d' js = .ok ({ d' with output := out' }, []) ∧
          exposed { d' with output := out' } =
            (if es.isEmpty then opOutput F new op else es).map toText := by
      intro h0 h1
      subst h0
      simp at he
      subst he
      exact ⟨[], [], h1, rfl, rfl, d'.output, rfl, by simpa using b9⟩
    have htail : ∀ js, Unmapped d' → unmapped d' = (opOutput F new op).map toText →
        js.mapM (at? (opOutput F new op)) = some es →
        ∃ out', applyText d' js = .ok ({ d' with output := out' }, []) ∧
          exposed { d' with output := out' } =
            (if es.isEmpty then opOutput F new op else es).map toText := by
      intro js hu1 hu2 hj
      have hj' : js.mapM (at? (unmapped d')) = some (es.map toText) := by
        rw [hu2]
        clear hu1 hu2 he a2 hnil
        induction js generalizing es with
        | nil => simp at hj; subst hj; rfl
        | cons j js ih =>
          obtain ⟨f, es', h3, h4, rfl⟩ := mapM_cons_some.mp hj
          exact mapM_cons_some.mpr ⟨_, _, by rw [at?_map, h3]; rfl, ih h4, rfl⟩
      obtain ⟨out', c1, c2⟩ := apply_ok hu1 hj' (by rw [hu2]; simpa using hlo)
      refine ⟨out', c1, ?_⟩
      rw [c2, b9]
      by_cases hes : es = []
      · simp [hes]
      · simp [hes]
    cases op with
    | read s cols => exact hnil hleg rfl
    | pass is => exact hnil hleg.1 rfl
    | join is => exact hnil hleg.1 rfl
    | project items =>
      obtain ⟨rfl, rfl⟩ := b10 ⟨items, rfl⟩
      have hin : ∀ f ∈ new, f ∈ F ∨ Plain f := by
        simp only [opMeaning, Option.map_eq_some_iff, Prod.mk.injEq] at h
        obtain ⟨xs, h1, _, rfl⟩ := h
        exact itemsMeaning_mem h1
      obtain ⟨ns, js, e1, e2, e3⟩ := emit_project hleg hs hs' hin hl
        { (⟨false, F, new, []⟩ : RelData) with output := out } rfl rfl rfl he
      refine ⟨ns, js, e1, e2, e3, htail js rfl ?_ e3⟩
      simp [unmapped, textData, opOutput]
    | aggregate gs ms =>
      obtain ⟨rfl, rfl⟩ := b11 ⟨gs, ms, rfl⟩
      have hpl : ∀ f ∈ es, Plain f := by
        intro f hf
        refine hleg.2.1 f ?_
        rw [filterMap_of_mapM (show emit.mapM (at? new) = some es from he)]
        exact hf
      obtain ⟨ns, js, e1, e2, e3⟩ := emit_aggregate (out := new.map toText) hleg.1 hs' hl
        { (⟨true, F, new, new⟩ : RelData) with output := out } rfl rfl he hpl
      refine ⟨ns, js, e1, e2, e3, htail js rfl ?_ e3⟩
      simp [unmapped, textData, opOutput]
  obtain ⟨ns, js, e1, e2, e3, out', e4, e5⟩ := hem
  refine ⟨_, to, ns, { d' with output := out' }, op', js, hbin, ?_, b5 out, e1, ?_, e5, b7, ?_⟩
  · rw [a2, b4]
  · simp only [stepText, b6, Outcome.bind_ok, e2, e4, Outcome.map_ok]
    simp
  · rw [b8]; exact e3

mutual
/-- The whole tree. -/
theorem tree_roundtrip {ν : Naming} {t : Tree} {m : MTree} {out : List Field}
    (h : meaning ν t = some (m, out)) (hleg : Legible ν t) :
    (∀ f ∈ out, Std f) ∧ ∃ d tt d' t', binary ν t = .ok (d, []) ∧ exposed d = out ∧
      print ν t = some tt ∧ readTree ν tt = .ok (some (d', t')) ∧
      exposed d' = out.map toText ∧ meaning ν t' = some (m, out) := by
  cases t with
  | node rel op emit ins =>
    rw [meaning, Option.bind_eq_some_iff] at h
    obtain ⟨ms, h1, h2⟩ := h
    rw [Option.bind_eq_some_iff] at h2
    obtain ⟨⟨mo, new⟩, h3, h4⟩ := h2
    rw [Option.map_eq_some_iff] at h4
    obtain ⟨es, h5, h6⟩ := h4
    simp only [Prod.mk.injEq] at h6
    obtain ⟨rfl, rfl⟩ := h6
    obtain ⟨hl1, hl2⟩ := (show LegibleL ν ins ∧ _ from hleg)
    obtain ⟨hop, hlen⟩ := hl2 ms h1 _ h3
    obtain ⟨hs, ds, tts, ds', b1, b2, b3, b4, b5, b6⟩ := trees_roundtrip h1 hl1
    obtain ⟨d, to, ns, d', op', js, c1, c2, c3, c4, c5, c6, c7, c8⟩ :=
      step_roundtrip h3 h5 hop hlen hs ds (ds'.map Prod.fst) b2 b5
    have hstd := meaning_std_step h3 hs
    refine ⟨?_, d, .node rel to ns tts, d', .node rel op' js (ds'.map Prod.snd), ?_, c2, ?_, ?_, c6, ?_⟩
    · intro f hf
      split at hf
      · exact hstd f hf
      · have hm := filterMap_of_mapM h5
        rw [← hm] at hf
        obtain ⟨i, _, hi⟩ := List.mem_filterMap.mp hf
        exact hstd f (at?_mem hi)
    · simp [binary, b1, c1]
    · have hb : binary ν (.node rel op emit ins) = .ok (d, []) := by simp [binary, b1, c1]
      rw [print, hb]
      simp [c3, c4, b3]
    · rw [readTree, b4]
      simp [c5]
    · rw [meaning, b6]
      simp [c7, c8]
      have : opOutput ms.2 new op' = opOutput ms.2 new op := by
        have := opMeaning_kind h3 c7
        exact this
      rw [this]
theorem trees_roundtrip {ν : Naming} {ts : List Tree} {ms : List MTree × List Field}
    (h : meaningL ν ts = some ms) (hleg : LegibleL ν ts) :
    (∀ f ∈ ms.2, Std f) ∧ ∃ ds tts ds', binaryL ν ts = .ok (ds, []) ∧ inputFields ds = ms.2 ∧
      printL ν ts = some tts ∧ readTreeL ν tts = .ok (some ds') ∧
      inputFields (ds'.map Prod.fst) = ms.2.map toText ∧
      meaningL ν (ds'.map Prod.snd) = some ms := by
  cases ts with
  | nil =>
    simp [meaningL] at h
    subst h
    exact ⟨by simp, [], [], [], rfl, rfl, rfl, rfl, rfl, rfl⟩
  | cons t ts =>
    rw [meaningL, Option.bind_eq_some_iff] at h
    obtain ⟨⟨m, out⟩, h1, h2⟩ := h
    rw [Option.map_eq_some_iff] at h2
    obtain ⟨ms', h3, rfl⟩ := h2
    obtain ⟨hs1, d, tt, d', t', a1, a2, a3, a4, a5, a6⟩ := tree_roundtrip h1 hleg.1
    obtain ⟨hs2, ds, tts, ds', b1, b2, b3, b4, b5, b6⟩ := trees_roundtrip h3 hleg.2
    refine ⟨?_, d :: ds, tt :: tts, (d', t') :: ds', ?_, ?_, ?_, ?_, ?_, ?_⟩
    · intro f hf
      rcases List.mem_append.mp hf with hf | hf
      · exact hs1 f hf
      · exact hs2 f hf
    · simp [binaryL, a1, b1]
    · simpa [inputFields, a2] using b2
    · simp [printL, a3, b3]
    · simp [readTreeL, a4, b4]
    · simpa [inputFields, a5] using b5
    · simp [meaningL, a6, b6]
end

end Verif.Schema
