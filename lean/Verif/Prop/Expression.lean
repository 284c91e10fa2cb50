import Verif.Lemmas.Expression

/-!
# C39: expressions in text plans
-/

namespace Verif.Expr

open Verif Verif.TyPb Verif.Tree Verif.Literal Verif.Lex Verif.Parse

/-! ## Expressions that survive -/

/-- The item is what the printer makes of an expression, and it is read as that expression. -/
structure Made (c : Context) (d : Nat) (e : PbExpr) (i : Item) : Prop where
  printed : printExpr c d e = .ok (i.text, [])
  good : Good i
  read : visit c i.tree = .ok (e, [])
  enum : isEnum i.tree = true → ∃ s, lastName c e = some s ∧ "_enum".toList <:+ s
  refs : subqueryRefs i.tree = askedOf e

theorem refsL_append : ∀ (a b : List ExprTree),
    subqueryRefsL (a ++ b) = subqueryRefsL a ++ subqueryRefsL b
  | [], _ => rfl
  | x :: xs, b => by
    rw [List.cons_append, subqueryRefsL, subqueryRefsL, refsL_append xs b, List.append_assoc]

theorem pair_ok {α β γ : Type} (f : α → β → γ) (a : α) (b : β) :
    Got.pair f (.ok (a, [])) (.ok (b, [])) = .ok (f a b, []) := rfl

theorem both_ok (a b : List Str) : both (.ok (a, [])) (.ok (b, [])) = .ok (a ++ b, []) := rfl

theorem enum_last {t : ExprTree} (h : isEnum t = true) (hl : t.text.getLast? ≠ some 'm') : False :=
  not_enum_of_last hl (suffix_of_endsWith h)

theorem enum_sub {t : ExprTree} {a n : Str} (h : isEnum t = true)
    (ht : t.text = a ++ (subTok.text ++ n)) : "_enum".toList <:+ n := by
  have h1 := suffix_of_endsWith h
  rw [ht, show subTok.text = "SUBQUER".toList ++ ['Y'] from by decide, List.append_assoc,
    ← List.append_assoc] at h1
  exact suffix_after (y := 'Y') (by decide) h1

theorem refText (n : Str) : RelRef.text ⟨n, none⟩ = n := by simp [RelRef.text]

theorem relation_ok {c : Context} {n : Str} (h : c.relation n = some true)
    (m : PbExpr × List RErr) (f : Str → Got PbExpr) :
    withRelation c ⟨n, none⟩ m f = f n := by
  unfold withRelation
  rw [refText, h]

theorem made_literal (c : Context) (hlib : c.lib.Numerals) (d : Nat) {l : PbLit}
    (h : LiteralOk c l) : ∃ i, Made c d (.literal l) i := by
  obtain ⟨text, toks, k, hp, hc, hv⟩ := literal_item c hlib h
  refine ⟨⟨text, toks, .const k⟩, ?_, good_const hc, ?_, fun he => (enum_last he hc.last).elim,
    by simp [subqueryRefs, askedOf]⟩
  · rw [printExpr, hp]; rfl
  · rw [visit, hv]; rfl

theorem made_field (c : Context) (d : Nat) {n : Int} {base : Root} (h : FieldOk c n base) :
    ∃ i, Made c d (.field (.field n false) base) i := by
  obtain ⟨h0, h1, hb, s, hs, hcol, hf⟩ := h
  obtain ⟨toks, tree, hg, ht, schema, id, rfl⟩ := good_column hcol
  refine ⟨⟨s, toks, _⟩, ?_, hg, ?_, ?_, by simp [subqueryRefs, askedOf]⟩
  · have : (n % 4294967296).toNat = n.toNat := by omega
    simp [printExpr, fieldText, Segment.number, this, hs]
  · rw [visit, ht, readColumn, hf]
    have hn : (n.toNat : Int) = n := by omega
    rcases hb with rfl | ⟨k, rfl⟩
    · simp [Root.steps, hn]
    · simp [Root.steps, hn]
  · intro he
    refine ⟨s, hs, ?_⟩
    have := suffix_of_endsWith he
    rwa [ht] at this

theorem made_scalar (c : Context) (d : Nat) {r : Option Str} (h : RelationOk c r) :
    ∃ i, Made c d (.scalar r) i := by
  obtain ⟨s, rfl, hn, hr⟩ := h
  refine ⟨_, by rw [printExpr]; rfl, good_scalar hn, ?_, fun he => ⟨s, rfl, enum_sub (a := []) he ?_⟩,
    by simp [subqueryRefs, askedOf]⟩
  · rw [visit, relation_ok hr]
  · simp [ExprTree.text, refText]

theorem made_setPredicate (c : Context) (d : Nat) {op : Int} {r : Option Str}
    (ho : op = 1 ∨ op = 2) (h : RelationOk c r) : ∃ i, Made c d (.setPredicate op r) i := by
  obtain ⟨s, rfl, hn, hr⟩ := h
  obtain ⟨exist, he⟩ : ∃ exist, predicateOf exist = op ∧
      Enum.printPredicate op = .text (predTok exist).text := by
    rcases ho with rfl | rfl
    · exact ⟨true, rfl, rfl⟩
    · exact ⟨false, rfl, rfl⟩
  refine ⟨_, ?_, good_setPredicate hn exist, ?_, fun hx => ⟨s, rfl, ?_⟩,
    by simp [subqueryRefs, askedOf]⟩
  · rw [printExpr, printSetPredicate, he.2]; rfl
  · rw [visit, relation_ok hr, he.1]
  · exact enum_sub (a := (predTok exist).text ++ inTok.text) hx (by simp [ExprTree.text, refText])

theorem comparison_ok {op : Int} (h : 1 ≤ op ∧ op ≤ 6) :
    ∃ w, Enum.printComparison op = .text w ∧ Enum.readComparison w = op ∧
      Lexes w [⟨.comparison, w⟩] NameEnd := by
  have : op = 1 ∨ op = 2 ∨ op = 3 ∨ op = 4 ∨ op = 5 ∨ op = 6 := by omega
  rcases this with rfl | rfl | rfl | rfl | rfl | rfl
  · exact ⟨_, rfl, by decide +kernel, Ext.lexes_word _ 'E' "Q".toList .comparison (by decide)
      (by decide) (by decide +kernel) (by decide) (by decide)⟩
  · exact ⟨_, rfl, by decide +kernel, Ext.lexes_word _ 'N' "E".toList .comparison (by decide)
      (by decide) (by decide +kernel) (by decide) (by decide)⟩
  · exact ⟨_, rfl, by decide +kernel, Ext.lexes_word _ 'L' "T".toList .comparison (by decide)
      (by decide) (by decide +kernel) (by decide) (by decide)⟩
  · exact ⟨_, rfl, by decide +kernel, Ext.lexes_word _ 'G' "T".toList .comparison (by decide)
      (by decide) (by decide +kernel) (by decide) (by decide)⟩
  · exact ⟨_, rfl, by decide +kernel, Ext.lexes_word _ 'L' "E".toList .comparison (by decide)
      (by decide) (by decide +kernel) (by decide) (by decide)⟩
  · exact ⟨_, rfl, by decide +kernel, Ext.lexes_word _ 'G' "E".toList .comparison (by decide)
      (by decide) (by decide +kernel) (by decide) (by decide)⟩

theorem reduction_ok {red : Int} (h : red = 1 ∨ red = 2) :
    ∃ all, reductionOf all = red ∧ Enum.printReduction red = .text (redTok all).text := by
  rcases h with rfl | rfl
  · exact ⟨false, rfl, rfl⟩
  · exact ⟨true, rfl, rfl⟩

theorem readable_isSet {c : Context} {e : PbExpr} (h : Readable c e) : e.isSet = true := by
  cases e <;> first
    | rfl
    | simp [Readable] at h

theorem made_setComparison (c : Context) (d : Nat) {e : PbExpr} {op red : Int} {r : Option Str}
    {i : Item} (hi : Made c d e i) (hset : e.isSet = true) (ho : 1 ≤ op ∧ op ≤ 6)
    (hred : red = 1 ∨ red = 2) (h : RelationOk c r) :
    ∃ i, Made c d (.setComparison e op red r) i := by
  obtain ⟨s, rfl, hn, hr⟩ := h
  obtain ⟨w, hw, hrd, hlex⟩ := comparison_ok ho
  obtain ⟨all, ha, hp⟩ := reduction_ok hred
  refine ⟨_, ?_, good_setComparison hi.good hn hlex all, ?_, fun hx => ⟨s, rfl, ?_⟩,
    by simp [subqueryRefs, askedOf, hi.refs]⟩
  · rw [printExpr, leftPrinted_set hset, hi.printed]
    simp [Outcome.map, printSetComparison, hw, hp, operatorText, relText]
  · rw [visit, hi.read]
    simp only [Outcome.bind]
    rw [relation_ok hr, ha, hrd]
  · exact enum_sub (a := i.tree.text ++ w ++ (redTok all).text) hx
      (by simp [ExprTree.text, refText])

theorem made_cast (c : Context) (d : Nat) {e : PbExpr} {t : PbType} {i : Item}
    (hi : Made c d e i) (ht : TypeOk t) : ∃ i, Made c d (.cast e t 0) i := by
  obtain ⟨id, us, q, numbers, hid, hx, hp, hr, hl⟩ := type_tree ht
  refine ⟨_, ?_, good_cast hi.good hid q numbers hx, ?_, fun he => ?_,
    by simp [subqueryRefs, askedOf, hi.refs]⟩
  · rw [printExpr, hi.printed, hp]; rfl
  · rw [visit, hi.read, hr]; rfl
  · refine (enum_last he ?_).elim
    rw [ExprTree.text, last_append (basic_ne_nil hid q numbers)]
    exact basic_last q numbers hl

/-- Items for a list of expressions. -/
structure MadeList (c : Context) (d : Nat) (es : List PbExpr) (is : List Item) : Prop where
  printed : printExprs c d es = .ok (is.map (·.text), [])
  good : ∀ i ∈ is, Good i
  read : visitList c (is.map (·.tree)) = .ok (es, [])
  refs : subqueryRefsL (is.map (·.tree)) = askedList es

/-- Items for arguments. -/
structure MadeArgs (c : Context) (d : Nat) (as : List PbArg) (is : List Item) : Prop where
  printed : printArgs c d as = .ok (is.map (·.text), [])
  good : ∀ i ∈ is, Good i
  read : visitArgs c (is.map (·.tree)) = .ok (as, [])
  refs : subqueryRefsL (is.map (·.tree)) = askedArgs as

/-- The conditions and values of clauses in a row. -/
def clauseExprs : List PbClause → List PbExpr
  | [] => []
  | .mk a b :: cs => a :: b :: clauseExprs cs

/-- Items for clauses. -/
structure MadeClauses (c : Context) (d : Nat) (cs : List PbClause) (is : List Item) : Prop where
  printed : printClauses c d cs = .ok (is.map (·.text), [])
  good : ∀ i ∈ is, Good i
  read : visitList c (is.map (·.tree)) = .ok (clauseExprs cs, [])
  refs : subqueryRefsL (is.map (·.tree)) = askedClauses cs

theorem madeList_cons {c : Context} {d : Nat} {e : PbExpr} {es : List PbExpr} {i : Item}
    {is : List Item} (h : Made c d e i) (hs : MadeList c d es is) :
    MadeList c d (e :: es) (i :: is) where
  printed := by rw [printExprs, h.printed, hs.printed]; rfl
  good := by
    intro j hj
    rcases List.mem_cons.mp hj with rfl | hj
    · exact h.good
    · exact hs.good j hj
  read := by rw [List.map_cons, visitList, h.read, hs.read]; rfl
  refs := by rw [List.map_cons, subqueryRefsL, askedList, h.refs, hs.refs]

theorem visitList_append {c : Context} {a b : List ExprTree} {x y : List PbExpr}
    (ha : visitList c a = .ok (x, [])) (hb : visitList c b = .ok (y, [])) :
    visitList c (a ++ b) = .ok (x ++ y, []) := by
  induction a generalizing x with
  | nil =>
    rw [visitList] at ha
    simp only [Outcome.ok.injEq, Prod.mk.injEq] at ha
    rw [← ha.1]; exact hb
  | cons t ts ih =>
    rw [visitList] at ha
    rw [List.cons_append, visitList]
    cases ht : visit c t with
    | ok r =>
      cases hts : visitList c ts with
      | ok s =>
        rw [ht, hts] at ha
        simp only [Got.pair, Outcome.bind, Outcome.map, Outcome.ok.injEq, Prod.mk.injEq,
          List.append_eq_nil_iff] at ha
        obtain ⟨hx, h1, h2⟩ := ha
        have := ih (x := s.1) (by rw [hts, ← h2])
        rw [this]
        simp [Got.pair, Outcome.bind, Outcome.map, h1, ← hx]
      | throw _ => rw [ht, hts] at ha; simp [Got.pair, Outcome.bind, Outcome.map] at ha
      | ub => rw [ht, hts] at ha; simp [Got.pair, Outcome.bind, Outcome.map] at ha
    | throw _ => rw [ht] at ha; simp [Got.pair, Outcome.bind] at ha
    | ub => rw [ht] at ha; simp [Got.pair, Outcome.bind] at ha

theorem madeClauses_cons {c : Context} {d : Nat} {a b : PbExpr} {cs : List PbClause} {i j : Item}
    {is : List Item} (ha : Made c d a i) (hb : Made c d b j) (hsa : a.isSet = true)
    (hsb : b.isSet = true) (hs : MadeClauses c d cs is) :
    MadeClauses c d (.mk a b :: cs) (i :: j :: is) where
  printed := by
    rw [printClauses, printClause_set c d hsa hsb, ha.printed, hb.printed, hs.printed]; rfl
  good := by
    intro k hk
    rcases List.mem_cons.mp hk with rfl | hk
    · exact ha.good
    rcases List.mem_cons.mp hk with rfl | hk
    · exact hb.good
    · exact hs.good k hk
  read := by
    rw [List.map_cons, List.map_cons, visitList, visitList, ha.read, hb.read, hs.read]; rfl
  refs := by
    rw [List.map_cons, List.map_cons, subqueryRefsL, subqueryRefsL, askedClauses, askedClause,
      ha.refs, hb.refs, hs.refs, List.append_assoc]

theorem enum_nonempty {s : Str} (h : IsColumn (s ++ "_enum".toList)) : s ≠ [] := by
  rintro rfl
  rcases h with ⟨ts, hl, hp, -⟩ | ⟨a, b, hab, -⟩
  · have : lex "_enum".toList = some [⟨.underscore, ['_']⟩, ⟨.identifier, "enum".toList⟩] := by
      decide +kernel
    rw [List.nil_append, this] at hl
    rw [← Option.some.inj hl] at hp
    exact absurd hp (by decide)
  · have : '.' ∈ "_enum".toList := by
      rw [← List.nil_append "_enum".toList, hab]; simp
    exact absurd this (by decide)

theorem stripEnum_append (s : Str) : stripEnum (s ++ "_enum".toList) = s := by
  simp [stripEnum]

theorem madeArgs_enum {c : Context} {d : Nat} {s : Str} {as : List PbArg} {is : List Item}
    (h : IsColumn (s ++ "_enum".toList)) (hs : MadeArgs c d as is) :
    ∃ is, MadeArgs c d (.enum s :: as) is := by
  obtain ⟨toks, tree, hg, ht, schema, id, htree⟩ := good_column h
  refine ⟨⟨s ++ "_enum".toList, toks, tree⟩ :: is, ?_, ?_, ?_, ?_⟩
  · rw [printArgs, printArg, hs.printed]; rfl
  · intro k hk
    rcases List.mem_cons.mp hk with rfl | hk
    · exact hg
    · exact hs.good k hk
  · have he : isEnum tree = true := by
      unfold isEnum; rw [ht]; exact endsWith_of_append (enum_nonempty h)
    rw [List.map_cons, visitArgs, if_pos he, hs.read, ht, stripEnum_append]
    rfl
  · rw [List.map_cons, subqueryRefsL, askedArgs, hs.refs, htree]
    simp [subqueryRefs, askedArg]

theorem madeArgs_value {c : Context} {d : Nat} {e : PbExpr} {as : List PbArg} {i : Item}
    {is : List Item} (h : Made c d e i) (hn : NotEnum c e) (hs : MadeArgs c d as is) :
    MadeArgs c d (.value e :: as) (i :: is) where
  printed := by rw [printArgs, printArg, h.printed, hs.printed]; rfl
  good := by
    intro k hk
    rcases List.mem_cons.mp hk with rfl | hk
    · exact h.good
    · exact hs.good k hk
  read := by
    have he : ¬ isEnum i.tree = true := fun he => by
      obtain ⟨s, h1, h2⟩ := h.enum he
      exact hn s h1 h2
    rw [List.map_cons, visitArgs, if_neg he, h.read, hs.read]
    rfl
  refs := by rw [List.map_cons, subqueryRefsL, askedArgs, askedArg, h.refs, hs.refs]

/-- The text of a call with the given arguments, and what the call is read as. -/
theorem call_item {c : Context} (d : Nat) {f : Nat} {as as' : List PbArg} {out : PbType}
    {is : List Item} (hf : FunctionOk c f) (hne : is ≠ [])
    (hp : printArgs c (d + 1) as = .ok (is.map (·.text), [])) (hg : ∀ i ∈ is, Good i)
    (hv : visitArgs c (is.map (·.tree)) = .ok (as', [])) (ht : TypeOk out) :
    ∃ i, printExpr c d (.call f 0 as [] out) = .ok (i.text, []) ∧ Good i ∧
      visit c i.tree = .ok (.call f 0 as' [] out, []) ∧ isEnum i.tree = false ∧
      subqueryRefs i.tree = subqueryRefsL (is.map (·.tree)) := by
  obtain ⟨s, hname, hn, hif, hanchor⟩ := hf
  obtain ⟨id, us, q, numbers, hid, hx, hpt, hr, hl⟩ := type_tree ht
  refine ⟨_, ?_, good_call hn.name d hg hid q numbers hx, ?_, ?_, by rw [subqueryRefs]⟩
  · have hemp : (is.map (·.text)).isEmpty = false := by
      cases is with
      | nil => exact absurd rfl hne
      | cons _ _ => rfl
    rw [printExpr, hp, printExprs, both_ok, List.append_nil]
    simp only [Outcome.map, functionText, hname, hpt, hemp]
    simp
  · have hif' : isIfThen s = false := by
      unfold isIfThen
      exact beq_false_of_ne hif
    rw [visit, hif', if_neg (by simp), hv, readOutput, hr, readFunction, hanchor]
    rfl
  · refine Bool.eq_false_iff.mpr fun he => enum_last he ?_
    rw [ExprTree.text, optText]
    rw [show ∀ a : Str, ')' :: a = [')'] ++ a from fun _ => rfl, ← List.append_assoc,
      ← List.append_assoc, last_append (basic_ne_nil hid q numbers)]
    exact basic_last q numbers hl

theorem made_call {c : Context} (d : Nat) {f : Nat} {as : List PbArg} {out : PbType}
    {is : List Item} (hf : FunctionOk c f) (hne : as ≠ []) (hs : MadeArgs c (d + 1) as is)
    (ht : TypeOk out) : ∃ i, Made c d (.call f 0 as [] out) i := by
  have hne' : is ≠ [] := by
    rintro rfl
    have := hs.read
    rw [List.map_nil, visitArgs] at this
    simp only [Outcome.ok.injEq, Prod.mk.injEq] at this
    exact absurd this.1.symm hne
  obtain ⟨i, h1, h2, h3, h4, h5⟩ := call_item d hf hne' hs.printed hs.good hs.read ht
  exact ⟨i, h1, h2, h3, fun h => absurd h (by simp [h4]), by rw [h5, hs.refs, askedOf]⟩

theorem ifClauses_append : ∀ (cs : List PbClause) (e : PbExpr),
    ifClauses (clauseExprs cs ++ [e]) = (cs, e)
  | [], _ => rfl
  | .mk a b :: cs, e => by
    have ih := ifClauses_append cs e
    simp only [clauseExprs, List.cons_append, ifClauses, ih]

theorem ifClauses_only : ∀ (cs : List PbClause), ifClauses (clauseExprs cs) = (cs, .notSet)
  | [] => rfl
  | .mk a b :: cs => by
    have ih := ifClauses_only cs
    simp only [clauseExprs, ifClauses, ih]

theorem made_ifThen {c : Context} {d : Nat} {cs : List PbClause} {els : PbExpr} {is js : List Item}
    (hs : MadeClauses c d cs is) (hj : ∀ j ∈ js, Good j)
    (hp : elsePieces els (printExpr c d els) = .ok (js.map (·.text), []))
    {x : List PbExpr} (hv : visitList c (js.map (·.tree)) = .ok (x, []))
    (hx : ifThenOf (clauseExprs cs ++ x) = .ifThen cs els)
    (hq : subqueryRefsL (js.map (·.tree)) = askedOf els) :
    ∃ i, Made c d (.ifThen cs els) i := by
  have hgood : ∀ i ∈ is ++ js, Good i := by
    intro i hi
    rcases List.mem_append.mp hi with hi | hi
    · exact hs.good i hi
    · exact hj i hi
  refine ⟨_, ?_, good_ifThen hgood, ?_, fun he => ?_, by
    rw [subqueryRefs, List.map_append, refsL_append, hs.refs, hq, askedOf]⟩
  · rw [printExpr, hs.printed, hp, both_ok, List.map_append]; rfl
  · have h1 : isIfThen "IFTHEN".toList = true := by decide
    rw [visit, if_pos h1, List.map_append, visitList_append hs.read hv]
    simp [Outcome.map, hx]
  · refine (enum_last he ?_).elim
    rw [ExprTree.text, optText, getLast_append_cons]
    decide

theorem made_else {c : Context} {d : Nat} {cs : List PbClause} {els : PbExpr} {is : List Item}
    (hne : cs ≠ [] ∨ els.isSet = true) (hs : MadeClauses c d cs is)
    (he : els.isSet = true → ∃ j, Made c d els j) : ∃ i, Made c d (.ifThen cs els) i := by
  cases hset : els.isSet with
  | true =>
    obtain ⟨j, hj⟩ := he hset
    refine made_ifThen hs (js := [j]) (by simpa using hj.good) ?_ (x := [els]) ?_ ?_
      (by simp [subqueryRefsL, hj.refs])
    · rw [elsePieces_set hset, hj.printed]; rfl
    · rw [List.map_cons, List.map_nil, visitList, visitList, hj.read]; rfl
    · unfold ifThenOf
      rw [if_neg (by simp), ifClauses_append]
  | false =>
    have hn : els = .notSet := by
      cases els <;> first
        | rfl
        | simp [PbExpr.isSet] at hset
    subst hn
    refine made_ifThen hs (js := []) (by simp) rfl (x := []) (by rw [List.map_nil, visitList]) ?_
      (by simp [subqueryRefsL, askedOf])
    have hcs : cs ≠ [] := by
      rcases hne with h | h
      · exact h
      · exact absurd h (by simp [PbExpr.isSet])
    unfold ifThenOf
    rw [List.append_nil, ifClauses_only, if_neg]
    cases cs with
    | nil => exact absurd rfl hcs
    | cons a r => cases a; simp [clauseExprs]

theorem made_in {c : Context} {d : Nat} {es : List PbExpr} {r : Option Str} {is : List Item}
    (hne : es ≠ []) (hs : MadeList c d es is) (h : RelationOk c r) :
    ∃ i, Made c d (.inPredicate es r) i := by
  obtain ⟨s, rfl, hn, hr⟩ := h
  cases is with
  | nil =>
    have := hs.read
    rw [List.map_nil, visitList] at this
    simp only [Outcome.ok.injEq, Prod.mk.injEq] at this
    exact absurd this.1.symm hne
  | cons i is =>
    refine ⟨_, ?_, good_in hn hs.good, ?_, fun he => ⟨s, rfl, ?_⟩, by
      rw [subqueryRefs, hs.refs, askedOf]; rfl⟩
    · rw [printExpr, hs.printed, show ") IN SUBQUERY ".toList = ')' :: " IN SUBQUERY ".toList from by
        decide]
      rfl
    · rw [visit, relation_ok hr, hs.read]; rfl
    · refine enum_sub (a := '(' :: commaText (ExprTree.texts ((i :: is).map (·.tree))) ++
        ')' :: inTok.text) he ?_
      simp [ExprTree.text, refText]

mutual
theorem made (c : Context) (hlib : c.lib.Numerals) : (e : PbExpr) → Readable c e → (d : Nat) →
    ∃ i, Made c d e i
  | .notSet, h, _ => absurd h (by simp [Readable])
  | .literal l, h, d => made_literal c hlib d (by simpa [Readable] using h)
  | .field (.field n false) base, h, d => made_field c d (by simpa [Readable] using h)
  | .field (.field n true) base, h, _ => absurd h (by simp [Readable])
  | .field .other base, h, _ => absurd h (by simp [Readable])
  | .masked _, h, _ => absurd h (by simp [Readable])
  | .noReference _, h, _ => absurd h (by simp [Readable])
  | .call f 0 as [] out, h, d => by
    rw [Readable] at h
    obtain ⟨is, his⟩ := madeArgs c hlib as h.2.2.1 (d + 1)
    exact made_call d h.1 h.2.1 his h.2.2.2
  | .call _ 0 _ (_ :: _) _, h, _ => absurd h (by simp [Readable])
  | .call _ (_ + 1) _ _ _, h, _ => absurd h (by simp [Readable])
  | .ifThen cs els, h, d => by
    rw [Readable] at h
    obtain ⟨is, his⟩ := madeClauses c hlib cs h.2.1 d
    exact made_else h.1 his (fun hs => made c hlib els (h.2.2 hs) d)
  | .cast e t k, h, d => by
    rw [Readable.eq_def] at h
    split at h <;> first
      | contradiction
      | skip
    rename_i heq
    simp only [PbExpr.cast.injEq] at heq
    obtain ⟨rfl, rfl, rfl⟩ := heq
    obtain ⟨i, hi⟩ := made c hlib e h.1 d
    exact made_cast c d hi h.2
  | .scalar r, h, d => made_scalar c d (by simpa [Readable] using h)
  | .inPredicate es r, h, d => by
    rw [Readable] at h
    obtain ⟨is, his⟩ := madeList c hlib es h.2.1 d
    exact made_in h.1 his h.2.2
  | .setPredicate op r, h, d => by
    rw [Readable] at h
    exact made_setPredicate c d h.1 h.2
  | .setComparison e op red r, h, d => by
    rw [Readable] at h
    obtain ⟨i, hi⟩ := made c hlib e h.1 d
    exact made_setComparison c d hi (readable_isSet h.1) h.2.1 h.2.2.1 h.2.2.2
  | .noSubquery, h, _ => absurd h (by simp [Readable])
  | .other _, h, _ => absurd h (by simp [Readable])
theorem madeArgs (c : Context) (hlib : c.lib.Numerals) : (as : List PbArg) → ReadableArgs c as →
    (d : Nat) → ∃ is, MadeArgs c d as is
  | [], _, d => ⟨[], by rw [printArgs]; rfl, by simp, by rw [List.map_nil, visitArgs], by
      rw [List.map_nil, subqueryRefsL, askedArgs]⟩
  | .enum s :: as, h, d => by
    rw [ReadableArgs, ReadableArg] at h
    obtain ⟨is, his⟩ := madeArgs c hlib as h.2 d
    exact madeArgs_enum h.1 his
  | .value e :: as, h, d => by
    rw [ReadableArgs, ReadableArg] at h
    obtain ⟨is, his⟩ := madeArgs c hlib as h.2 d
    obtain ⟨i, hi⟩ := made c hlib e h.1.1 d
    exact ⟨_, madeArgs_value hi h.1.2 his⟩
  | .type t :: as, h, _ => absurd h (by simp [ReadableArgs, ReadableArg])
  | .notSet :: as, h, _ => absurd h (by simp [ReadableArgs, ReadableArg])
theorem madeList (c : Context) (hlib : c.lib.Numerals) : (es : List PbExpr) → ReadableList c es →
    (d : Nat) → ∃ is, MadeList c d es is
  | [], _, d => ⟨[], by rw [printExprs]; rfl, by simp, by rw [List.map_nil, visitList], by
      rw [List.map_nil, subqueryRefsL, askedList]⟩
  | e :: es, h, d => by
    rw [ReadableList] at h
    obtain ⟨is, his⟩ := madeList c hlib es h.2 d
    obtain ⟨i, hi⟩ := made c hlib e h.1 d
    exact ⟨_, madeList_cons hi his⟩
theorem madeClauses (c : Context) (hlib : c.lib.Numerals) : (cs : List PbClause) →
    ReadableClauses c cs → (d : Nat) → ∃ is, MadeClauses c d cs is
  | [], _, d => ⟨[], by rw [printClauses]; rfl, by simp, by
      rw [List.map_nil, visitList]; rfl, by
      rw [List.map_nil, subqueryRefsL, askedClauses]⟩
  | .mk a b :: cs, h, d => by
    rw [ReadableClauses, ReadableClause] at h
    obtain ⟨is, his⟩ := madeClauses c hlib cs h.2 d
    obtain ⟨i, hi⟩ := made c hlib a h.1.1 d
    obtain ⟨j, hj⟩ := made c hlib b h.1.2 d
    exact ⟨_, madeClauses_cons hi hj (readable_isSet h.1.1) (readable_isSet h.1.2) his⟩
end

theorem Good.parseText {i : Item} (h : Good i) : parseText i.text = some i.tree := by
  have hl := h.lexes [';'] nameEnd_semicolon
  rw [lex_semicolon, Option.map_some] at hl
  have hp := h.parse_end (rounds (i.toks ++ [⟨.semicolon, [';']⟩]))
    (by simp [rounds]; omega) [⟨.semicolon, [';']⟩] (tailOk_cons _ _ (by simp)) ⟨rfl, rfl⟩
  unfold Expr.parseText
  rw [hl, Option.bind_some, exprOf, hp]
  rfl

/-- **C39.**  Every expression of `Readable` is printed without an error, and the text is read
as the same expression without an error, however deep it is and however deep it stands in calls
(the text has line breaks that depend on this).

This is the part of C39 that holds: `Readable` leaves out what is lost, which is shown below. -/
theorem expression_roundtrip_partial (c : Context) (hlib : c.lib.Numerals) (e : PbExpr)
    (h : Readable c e) (d : Nat) : ReadsBack c d e := by
  obtain ⟨i, hi⟩ := made c hlib e h d
  refine ⟨i.text, hi.printed, ?_⟩
  unfold readText
  rw [hi.good.parseText, Option.map_some, hi.read]

/-! A concrete context, for the examples. -/

/-- A library that prints all floating point numbers as 0. -/
def sampleLib : Lib :=
  ⟨fun _ => ['0'], fun _ => ['0'], fun _ => .ok 0, fun _ => .ok 0, fun _ => none, fun _ => none,
    fun _ => none⟩

theorem sampleLib_numerals : sampleLib.Numerals :=
  ⟨fun _ => .inl (isNumberText_natText 0), fun _ => .inl (isNumberText_natText 0)⟩

/-- A column. -/
def sampleColumn (name : String) (schema : Option String) : Schema.Field :=
  ⟨.column "rel".toList 0, name.toList, [], schema.map (·.toList)⟩

/-- Two relations, one inside the other. -/
def sampleScopes : List Schema.RelData :=
  [⟨false, [sampleColumn "a" none, sampleColumn "b" (some "schema"),
      sampleColumn "size_enum" none, sampleColumn "null_i32" none], [], []⟩,
    ⟨false, [sampleColumn "x" none, sampleColumn "o" none], [], []⟩]

/-- Two relations, one inside the other; functions 1 and 2; a relation `inner`. -/
def sample : Context where
  lib := sampleLib
  scopes := sampleScopes
  readScopes := sampleScopes
  functionName n := if n = 1 then some "add".toList else if n = 2 then some "ifthen".toList else none
  functionAnchor s :=
    if s = "add".toList then some 1 else if s = "ifthen".toList then some 2 else none
  relation s :=
    if s = "inner".toList then some true else if s = "add".toList then some false else none

theorem sample_name {s : Str} {ts : List Token} (h : Name s ts) : Ext.IsName s :=
  ⟨ts, h.lexes, h.parses⟩

theorem sample_add : FunctionOk sample 1 :=
  ⟨"add".toList, rfl, sample_name (ts := [idTok "add"]) (name_of (by decide +kernel)), by decide,
    by decide⟩

theorem sample_inner : RelationOk sample (some "inner".toList) :=
  ⟨_, rfl, sample_name (ts := [idTok "inner"]) (name_of (by decide +kernel)), by decide⟩

theorem sample_a : FieldOk sample 0 .root :=
  ⟨by decide, by decide, .inl rfl, "a".toList, by decide,
    .inl ⟨[idTok "a"], by decide +kernel, by decide, by decide⟩, by decide⟩

theorem sample_b : FieldOk sample 1 .root :=
  ⟨by decide, by decide, .inl rfl, "schema.b".toList, by decide,
    .inr ⟨"schema".toList, "b".toList, by decide,
      sample_name (ts := [⟨.schema, "schema".toList⟩]) (name_of (by decide +kernel)),
      sample_name (ts := [idTok "b"]) (name_of (by decide +kernel))⟩, by decide⟩

theorem sample_o : FieldOk sample 1 (.outer 1) :=
  ⟨by decide, by decide, .inr ⟨0, rfl⟩, "o".toList, by decide,
    .inl ⟨[idTok "o"], by decide +kernel, by decide, by decide⟩, by decide⟩

/-- `(IFTHEN(a, schema.b, -3_i32) AS decimal<9,2>, o) IN SUBQUERY inner` as an argument of a
call with an enumeration, compared with `ANY SUBQUERY inner`. -/
def sampleExpr : PbExpr :=
  .setComparison
    (.call 1 0 [.enum "UP".toList,
      .value (.inPredicate
        [.cast (.ifThen [.mk (.field (.field 0 false) .root) (.field (.field 1 false) .root)]
            (.literal (.atom (.i32 (-3)) false))) (.decimal 9 2 .required) 0,
          .field (.field 1 false) (.outer 1)] (some "inner".toList))] []
      (.scalar .bool .nullable)) 2 1 (some "inner".toList)

theorem sample_readable : Readable sample sampleExpr := by
  have hup : IsColumn ("UP".toList ++ "_enum".toList) :=
    .inl ⟨[idTok "UP", uTok, idTok "enum"], by decide +kernel, by decide, by decide⟩
  have hne : NotEnum sample (.inPredicate
        [.cast (.ifThen [.mk (.field (.field 0 false) .root) (.field (.field 1 false) .root)]
            (.literal (.atom (.i32 (-3)) false))) (.decimal 9 2 .required) 0,
          .field (.field 1 false) (.outer 1)] (some "inner".toList)) := by
    intro s hs
    simp only [lastName, Option.some.injEq] at hs
    subst hs
    exact not_enum_of_last (by decide)
  have ht : TypeOk (.decimal 9 2 .required) := ⟨by decide, by simp [paramsFit]; decide, by decide⟩
  have hb : TypeOk (.scalar .bool .nullable) := ⟨by decide, trivial, by decide⟩
  have hl : LiteralOk sample (.atom (.i32 (-3)) false) := ⟨by simp only [Atom.fits]; decide, trivial, trivial⟩
  simp only [sampleExpr, Readable, ReadableArgs, ReadableArg, ReadableList, ReadableClauses,
    ReadableClause, PbExpr.isSet]
  refine ⟨⟨sample_add, by simp, ⟨hup, ⟨?_, hne⟩, trivial⟩, hb⟩, by decide, .inl (by simp), sample_inner⟩
  refine ⟨by simp, ⟨⟨⟨.inl (by simp), ⟨⟨sample_a, sample_b⟩, trivial⟩, fun _ => hl⟩, ht⟩, sample_o,
    trivial⟩, sample_inner⟩

/-- Non-vacuity of C39. -/
example : ReadsBack sample 2 sampleExpr :=
  expression_roundtrip_partial sample sampleLib_numerals _ sample_readable 2

end Verif.Expr
