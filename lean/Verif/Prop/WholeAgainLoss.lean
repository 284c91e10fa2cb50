import Verif.Prop.WholeAgain

/-! # C65: texts that do not stay as they are -/

namespace Verif.Whole

open Verif Verif.TyPb Verif.Expr Verif.Schema

/-- A plan that reads a table and declares functions it does not call. -/
def declaring (uris : List Ext.PbUri) (functions : List Ext.PbFunction) : Input :=
  ⟨uris, functions, ["x".toList, "y".toList], sampleTable⟩

/-- The declarations of the plan that is made of the text. -/
def redeclared (p : Input) : List Ext.PbUri × List Ext.PbFunction :=
  match Ext.blocks insertSort p.table with
  | .ok bs => (Ext.binaryUris (readTable bs), Ext.binaryFunctions (readTable bs))
  | _ => ([], [])

theorem declaring_tree (p : Input) (up : List Nat) :
    TreeFits sampleLib ⟨Declared p, fun n => n = [], fun _ _ => False⟩ up sampleTable :=
  ⟨⟨rfl, fun _ h => by cases h⟩,
    ⟨⟨_, rfl, sample_schema (whole_names _ (by decide)) (whole_names _ (by decide)) (by decide)
      (by decide) (by decide)⟩, _, rfl, .named _ (by simp) (by
        intro n hn
        simp only [List.mem_cons, List.not_mem_nil, or_false] at hn
        rcases hn with rfl | rfl <;> exact Sec.quotable_of (by decide) (by decide))⟩,
    ⟨rfl, fun _ => rfl⟩, by decide, trivial⟩

/-- Going through text once. -/
theorem declaring_trip {us : List Ext.PbUri} {fs : List Ext.PbFunction}
    (h : Expressible sampleLib (declaring us fs)) {us' : List Ext.PbUri} {fs' : List Ext.PbFunction}
    (hd : redeclared (declaring us fs) = (us', fs')) :
    ∃ text, Trip sampleLib insertSort 1 (declaring us fs) text (declaring us' fs') ∧
      Expressible sampleLib (declaring us' fs') := by
  obtain ⟨bs, r, hb, hfit, he, hr, -, hfine, hu, ht, -⟩ := trip_of (fuel := 1) sampleLib_numerals
    insertSort_sorts.same h (by show (owns sampleTable).length ≤ 1; decide)
  have hx := onward_expressible h hfit hu (uris_nodup (blocks_uris (Ext.binary_placed _ _) hb)) he
    hfine.good
  unfold redeclared at hd
  rw [hb] at hd
  simp only [Prod.mk.injEq] at hd
  have hq : onward bs (declaring us fs).names
      (erase (again (newNumber (declaring us fs).table bs) r)) = declaring us' fs' := by
    rw [hr]
    unfold onward
    rw [hd.1, hd.2]
    rfl
  rw [hq] at ht hx
  exact ⟨_, ht, hx⟩

/-! ### Two overloads -/

/-- Two functions of the same name; the first one is in the space that is printed last. -/
def twoSpaces : Input := declaring [⟨"/f.yaml".toList, 1⟩, ⟨"/g.yaml".toList, 2⟩]
  [⟨0, "equal:i32_i32".toList, 2⟩, ⟨1, "equal:i32".toList, 1⟩]

def twoTurned : Input := declaring [⟨"/f.yaml".toList, 1⟩, ⟨"/g.yaml".toList, 2⟩]
  [⟨0, "equal:i32".toList, 1⟩, ⟨1, "equal:i32_i32".toList, 2⟩]

/-- Texts that differ. -/
def differ (a b : Outcome Str) : Bool :=
  match a, b with
  | .ok s, .ok t => decide (s ≠ t)
  | _, _ => false

theorem texts_differ {p q r r' : Input} {text text' : Str}
    (h : Trip sampleLib insertSort 1 p text r) (h' : Trip sampleLib insertSort 1 q text' r')
    (hd : differ (toText sampleLib insertSort 1 p) (toText sampleLib insertSort 1 q) = true) :
    text ≠ text' := by
  rw [h.1, h'.1] at hd
  exact of_decide_eq_true hd

theorem overload_names : ∀ s ∈ ["equal", "equal2", "equal3", "equal4", "equal5", "equal6", "equal7",
    "equal8", "equal9", "equal10", "a", "b", "c", "d", "e", "f", "g", "h", "i", "j", "i32",
    "i32_i32"].map String.toList, Ext.IsName s := by
  intro s hs
  refine ⟨(Lex.lex s).getD [], ?_⟩
  revert s
  decide +kernel

/-- Plans of overloads of one function. -/
theorem declaring_expressible {us : List Ext.PbUri} {fs : List Ext.PbFunction} (types : List Str)
    (hanchors : (fs.map (·.anchor)).Nodup)
    (hfuns : ((declaring us fs).table.funs.map (·.symbol)).Nodup ∧
      (∀ f ∈ (declaring us fs).table.funs, f.symbol ∈ ["equal", "equal2", "equal3", "equal4", "equal5",
        "equal6", "equal7", "equal8", "equal9", "equal10"].map String.toList) ∧
      (∀ f ∈ (declaring us fs).table.funs, ∃ t ∈ types, f.name = "equal:".toList ++ t) ∧
      ∀ f ∈ (declaring us fs).table.funs, ∀ g ∈ (declaring us fs).table.funs,
        f.space.bind (Ext.uriOf (declaring us fs).table.spaces) =
          g.space.bind (Ext.uriOf (declaring us fs).table.spaces) → f.space = g.space)
    (ht : ∀ t ∈ types, t ∈ ["a", "b", "c", "d", "e", "f", "g", "h", "i", "j", "i32",
      "i32_i32"].map String.toList)
    (hu : ∀ u ∈ us, u.uri ∈ ["/f.yaml".toList, "/g.yaml".toList]) :
    Expressible sampleLib (declaring us fs) where
  tree := declaring_tree _ _
  functions := {
    anchors := hanchors
    symbols := hfuns.1
    distinct := hfuns.2.2.2
    uris := by
      intro u h
      have : ∀ s ∈ ["/f.yaml".toList, "/g.yaml".toList], Ext.IsUri s := by
        unfold Ext.IsUri; decide +kernel
      exact this _ (hu u h)
    named := by
      intro f hf
      have h1 := hfuns.2.1 f hf
      refine ⟨overload_names _ ?_, ?_⟩
      · revert h1
        generalize f.symbol = x
        revert x
        decide +kernel
      · revert h1
        generalize f.symbol = x
        revert x
        decide +kernel
    typed := by
      intro f hf
      obtain ⟨t, h1, h2⟩ := hfuns.2.2.1 f hf
      have h3 := ht t h1
      rw [h2]
      refine ⟨⟨"equal".toList, t, rfl, overload_names _ (by decide +kernel), .inr (overload_names _ ?_)⟩,
        ?_⟩
      · revert h3
        generalize t = x
        revert x
        decide +kernel
      · revert h3
        generalize t = x
        revert x
        decide +kernel }
  names := {
    columns := by
      intro n hn
      apply not_madeUp
      revert n
      show ∀ n ∈ columns sampleTable, _
      decide +kernel
    tables := by
      show ∀ n ∈ tables sampleTable, ¬ MadeUp n ∧ n ≠ Sec.rootNamesName ∧ n ∉ fileKeys sampleTable
      intro n hn
      refine ⟨not_madeUp ?_, ?_⟩ <;> revert n <;> decide +kernel
    uris := by
      intro u h
      have : ∀ s ∈ ["/f.yaml".toList, "/g.yaml".toList],
          bases.all (fun b => !b.isPrefixOf s) = true ∧ s ≠ Sec.rootNamesName := by decide +kernel
      exact ⟨not_madeUp (this _ (hu u h)).1, (this _ (hu u h)).2⟩
    files := by
      show (fileKeys sampleTable).Nodup
      decide +kernel
    functions := by
      intro f hf
      show ¬ MadeUp f.symbol ∧ f.symbol ∉ columns sampleTable ∧ f.symbol ∉ tables sampleTable ∧ _
      have h1 := hfuns.2.1 f hf
      have h2 : ∀ x ∈ ["equal", "equal2", "equal3", "equal4", "equal5",
        "equal6", "equal7", "equal8", "equal9", "equal10"].map String.toList,
          bases.all (fun b => !b.isPrefixOf x) = true ∧ x ∉ columns sampleTable ∧
          x ∉ tables sampleTable ∧ x ∉ ["/f.yaml".toList, "/g.yaml".toList] := by decide +kernel
      have h3 := h2 _ h1
      exact ⟨not_madeUp h3.1, h3.2.1, h3.2.2.1, fun u h e => h3.2.2.2 (e ▸ hu u h)⟩ }
  root := by
    show ∀ n ∈ ["x".toList, "y".toList], _
    intro n hn
    apply whole_names
    revert n
    decide +kernel

theorem twoSpaces_expressible : Expressible sampleLib twoSpaces :=
  declaring_expressible ["i32_i32".toList, "i32".toList] (by decide) (by decide +kernel)
    (by decide +kernel) (by decide)

/-- **Defect D107, with two overloads.**  The text of the plan that is made of a text need not be
that text: `text_fixed_partial` needs that there are no overloads. -/
theorem text_not_fixed : Expressible sampleLib twoSpaces ∧ FewOverloads twoSpaces ∧
    ¬ ∃ text q, Trip sampleLib insertSort 1 twoSpaces text q ∧ Trip sampleLib insertSort 1 q text q := by
  refine ⟨twoSpaces_expressible, ?_, ?_⟩
  · intro b
    exact Nat.le_trans List.count_le_length (by decide)
  · rintro ⟨text, q, h1, h2⟩
    obtain ⟨t1, k1, hx⟩ := declaring_trip (us' := twoTurned.uris) (fs' := twoTurned.functions)
      twoSpaces_expressible (by decide +kernel)
    have e := (Trip.same k1 h1).2
    subst e
    exact texts_differ h1 h2 (by decide +kernel) rfl

/-! ### Ten overloads -/

/-- Ten overloads of `equal`: after the first one, the others turned round by `k`. -/
def tenOverloads (k : Nat) : Input := declaring [⟨"/f.yaml".toList, 1⟩]
  ((("a" :: (["b", "c", "d", "e", "f", "g", "h", "i", "j"].rotateRight k)).map
    fun t => "equal:".toList ++ t.toList).zipIdx.map fun x => ⟨x.2, x.1, 1⟩)

theorem tenOverloads_turn : ∀ k ∈ List.range 9,
    redeclared (tenOverloads k) = ((tenOverloads ((k + 1) % 9)).uris,
      (tenOverloads ((k + 1) % 9)).functions) := by decide +kernel

theorem tenOverloads_differ : ∀ k ∈ List.range 9,
    differ (toText sampleLib insertSort 1 (tenOverloads k))
      (toText sampleLib insertSort 1 (tenOverloads ((k + 1) % 9))) = true := by decide +kernel

theorem tenOverloads_expressible : ∀ k ∈ List.range 9, Expressible sampleLib (tenOverloads k) := by
  intro k hk
  refine declaring_expressible (["a", "b", "c", "d", "e", "f", "g", "h", "i", "j"].map String.toList)
    ?_ ?_ (by decide +kernel) (by decide) <;> revert k <;> decide +kernel

theorem tenOverloads_trip {k : Nat} (hk : k ∈ List.range 9) {text : Str} {q : Input}
    (h : Trip sampleLib insertSort 1 (tenOverloads k) text q) : q = tenOverloads ((k + 1) % 9) := by
  obtain ⟨t, h1, -⟩ := declaring_trip (tenOverloads_expressible k hk) (tenOverloads_turn k hk)
  exact (Trip.same h1 h).2

theorem mod_range (k : Nat) : k % 9 ∈ List.range 9 := List.mem_range.mpr (Nat.mod_lt _ (by decide))

theorem tenOverloads_trips {n : Nat} {p q : Input} (h : Trips sampleLib insertSort 1 n p q) :
    ∀ k ∈ List.range 9, p = tenOverloads k → ∃ k' ∈ List.range 9, q = tenOverloads k' := by
  induction h with
  | none p => exact fun k hk e => ⟨k, hk, e⟩
  | more h1 _ ih =>
    intro k hk e
    subst e
    exact ih _ (mod_range _) (tenOverloads_trip hk h1)

/-- **Defect D107.**  With ten overloads of a function the text never stays as it is: however often
the plan has been sent through text, the next text is another one.  (`equal10` is in front of
`equal2` in the text.) -/
theorem text_never_settles : Expressible sampleLib (tenOverloads 0) ∧
    ∀ n q, Trips sampleLib insertSort 1 n (tenOverloads 0) q →
      ∃ text q' text' q'', Trip sampleLib insertSort 1 q text q' ∧
        Trip sampleLib insertSort 1 q' text' q'' ∧ text' ≠ text := by
  refine ⟨tenOverloads_expressible 0 (by decide), fun n q h => ?_⟩
  obtain ⟨k, hk, rfl⟩ := tenOverloads_trips h 0 (by decide) rfl
  obtain ⟨t1, h1, -⟩ := declaring_trip (tenOverloads_expressible k hk) (tenOverloads_turn k hk)
  obtain ⟨t2, h2, -⟩ := declaring_trip (tenOverloads_expressible _ (mod_range (k + 1)))
    (tenOverloads_turn _ (mod_range (k + 1)))
  exact ⟨t1, _, t2, _, h1, h2, fun e => texts_differ h1 h2 (tenOverloads_differ k hk) e.symm⟩

end Verif.Whole
