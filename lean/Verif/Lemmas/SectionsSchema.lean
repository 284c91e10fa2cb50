import Verif.Lemmas.SectionsText

/-!
# Lemmas on the text of schemas
-/

namespace Verif.Sec

open Verif Verif.TyPb Verif.Tree Verif.Literal Verif.Lex Verif.Parse Verif.Expr
open Verif.Rel (Line GoodLine linesText linesToks openTok closeTok semiTok goesOn)

theorem lexes_two (ok : Str → Prop) : Lexes "  ".toList [] ok :=
  Lexes.cast (lexes_spaces 2 ok) (by decide) rfl

theorem lexes_one (ok : Str → Prop) : Lexes " ".toList [] ok :=
  Lexes.cast (lexes_spaces 1 ok) (by decide) rfl

theorem nameEnd_one (x : Str) : NameEnd (" ".toList ++ x) :=
  nameEnd_literal _ _ ⟨' ', [], by decide, by decide⟩

theorem lexes_semiLine (ok : Str → Prop) : Lexes ";\n".toList [semiTok] ok :=
  Lexes.cast (Rel.lexes_lineEnd ok) (by decide) rfl

theorem nameEnd_semiLine (x : Str) : NameEnd (";\n".toList ++ x) :=
  nameEnd_literal _ _ ⟨';', ['\n'], by decide, by decide⟩

theorem lexes_openLine (ok : Str → Prop) : Lexes " {\n".toList [openTok] ok :=
  Lexes.cast (Lexes.then (lexes_spaces 1 Any) (Lexes.then (lexes_open Any) (lexes_nl ok)))
    (by decide) rfl

theorem nameEnd_openLine (x : Str) : NameEnd (" {\n".toList ++ x) :=
  nameEnd_literal _ _ ⟨' ', ['{', '\n'], by decide, by decide⟩

theorem lexes_schemaHead (ok : Str → Prop) :
    Lexes "schema ".toList [⟨.schema, schemaWord⟩] ok :=
  Lexes.cast (Lexes.sp lexes_schema (Lexes.nil ok)) (by decide) rfl

theorem tyEnd_semi (r : List Token) : TyEnd (semiTok :: r) := ⟨rfl, rfl, rfl⟩

theorem simpleId_underscore {t : Token} (h : isSimpleId t.kind = true) (r : List Token) :
    nextIs .underscore (t :: r) = false := by
  have : t.kind ≠ .underscore := by intro e; rw [e] at h; exact absurd h (by decide)
  simp [nextIs, this]

/-- A column is read as its name and its type. -/
theorem good_column {n : Str} {t : PbType} (hn : Ext.IsName n) (ht : TypeOk t) :
    ∃ l : Line (Str × TypeTree), GoodLine parseColumn l ∧ l.text = columnText n t ∧
      l.detail.1 = n ∧ readType l.detail.2 = .ok (t, []) := by
  obtain ⟨id, ts, q, numbers, hid, hx, hp, hr, -⟩ := type_tree ht
  refine ⟨⟨columnText n t, Ext.toksOf n ++ (basicToks ts q numbers ++ [semiTok]),
    (n, .basic id q numbers)⟩, ⟨?_, ?_, ?_⟩, rfl, rfl, hr⟩
  · have h1 := Lexes.append (Lexes.then (lexes_two Any) hn.name.lexes_) (lexes_one Any)
      (fun rest _ => nameEnd_one rest)
    have h2 := Lexes.append (Lexes.then h1 (lexes_basic hid q numbers hx)) (lexes_semiLine Any)
      (fun rest _ => nameEnd_semiLine rest)
    refine Lexes.cast h2 ?_ (by simp)
    rw [columnText, hp]
  · obtain ⟨u, r, e, hk⟩ := hn.name.head
    refine ⟨u, r ++ (basicToks ts q numbers ++ [semiTok]), by simp [e], ?_⟩
    intro e; rw [e] at hk; exact absurd hk (by decide)
  · intro rest
    obtain ⟨u, r, e, hk⟩ := hid.head
    have h1 := hn.name.parse_append (basicToks ts q numbers ++ (semiTok :: rest)) (by
      rw [basicToks, e, List.cons_append, List.cons_append]
      exact simpleId_underscore hk _)
    have h2 : typeOf (basicToks ts q numbers ++ (semiTok :: rest)) =
        some (.basic id q numbers, semiTok :: rest) := by
      rw [typeOf, rounds]
      exact parseType_toks hid q numbers (semiTok :: rest) (fun _ => tyEnd_semi rest) _
    have h3 : Rel.parseOptId .named (semiTok :: rest) = some (none, semiTok :: rest) := rfl
    show parseColumn (Ext.toksOf n ++ (basicToks ts q numbers ++ [semiTok]) ++ rest) = _
    rw [List.append_assoc, List.append_assoc, List.cons_append, List.nil_append, parseColumn, h1,
      Option.bind_some, h2, Option.bind_some, h3]
    rfl

/-- The columns of a schema are read as the names and types they come from. -/
theorem good_columns : ∀ (ns : List Str) (ts : List PbType), (∀ n ∈ ns, Ext.IsName n) →
    (∀ t ∈ ts, TypeOk t) → ∃ ls : List (Line (Str × TypeTree)),
      (∀ l ∈ ls, GoodLine parseColumn l) ∧ linesText ls = columnsText ns ts ∧
      ∀ loc, readColumns loc (ls.map (·.detail)) =
        .ok ((ns.zip ts).map fun c => ⟨c.1, loc, .column c.2⟩, [])
  | [], _, _, _ => ⟨[], by simp, rfl, fun _ => rfl⟩
  | _ :: _, [], _, _ => ⟨[], by simp, rfl, fun _ => rfl⟩
  | n :: ns, t :: ts, hn, ht => by
    obtain ⟨l, h1, h2, h3, h4⟩ := good_column (hn n (by simp)) (ht t (by simp))
    obtain ⟨ls, i1, i2, i3⟩ := good_columns ns ts (fun m hm => hn m (by simp [hm]))
      (fun u hu => ht u (by simp [hu]))
    refine ⟨l :: ls, ?_, ?_, ?_⟩
    · intro x hx
      rcases List.mem_cons.mp hx with rfl | hx
      · exact h1
      · exact i1 x hx
    · rw [linesText, h2, i2, columnsText]
    · intro loc
      simp [readColumns, h3, h4, i3, Outcome.bind, Outcome.map]

theorem schema_not_relation {t : Token} {r : List Token} (h : isSimpleId t.kind = true)
    (w : Str) : startsRelation (⟨.schema, w⟩ :: t :: r) = false := by
  refine startsRelation_cons rfl (simpleId_underscore h r) ?_
  have : t.kind ≠ .relation := by intro e; rw [e] at h; exact absurd h (by decide)
  simp [nextIs, this]

theorem schemaText_parts (name : Str) (s : NamedStruct) (C : Str)
    (h : C = columnsText s.names s.types) :
    schemaText name s = "schema ".toList ++ name ++ " {\n".toList ++ C ++ "}\n".toList := by
  subst h
  unfold schemaText
  exact Eq.refl _

/-- A schema is read as its name and its columns. -/
theorem good_schema {name : Str} {s : NamedStruct} (h : SchemaOk name s) :
    ∃ (l : Line PlanDetail) (cs : List (Str × TypeTree)), GoodLine parsePlanDetail l ∧
      l.text = schemaText name s ∧ l.detail = .schema name cs ∧
      ∀ loc, readColumns loc cs =
        .ok ((s.names.zip s.types).map fun c => ⟨c.1, loc, .column c.2⟩, []) := by
  obtain ⟨ls, h1, h2, h3⟩ := good_columns s.names s.types h.names h.types
  have hn := h.name.name
  refine ⟨⟨schemaText name s, ⟨.schema, schemaWord⟩ :: (Ext.toksOf name ++ openTok ::
    (linesToks ls ++ [closeTok])), .schema name (ls.map (·.detail))⟩, ls.map (·.detail),
    ⟨?_, ⟨_, _, rfl, by simp⟩, ?_⟩, rfl, rfl, h3⟩
  · have h4 := Lexes.append (Lexes.then (lexes_schemaHead Any) hn.lexes_) (lexes_openLine Any)
      (fun rest _ => nameEnd_openLine rest)
    have h5 := Lexes.then (Lexes.then h4 (Rel.lexes_lines ls h1)) (lexes_end Any)
    exact Lexes.cast h5 (schemaText_parts name s _ h2) (by simp)
  · intro rest
    show parsePlanDetail (⟨.schema, schemaWord⟩ :: (Ext.toksOf name ++ openTok ::
      (linesToks ls ++ [closeTok])) ++ rest) = _
    have e : (⟨.schema, schemaWord⟩ : Token) :: (Ext.toksOf name ++ openTok ::
        (linesToks ls ++ [closeTok])) ++ rest = ⟨.schema, schemaWord⟩ :: (Ext.toksOf name ++
          openTok :: (linesToks ls ++ closeTok :: rest)) := by simp
    rw [e]
    obtain ⟨u, r, eu, hk⟩ := hn.head
    have hs : startsRelation (⟨.schema, schemaWord⟩ :: (Ext.toksOf name ++
          openTok :: (linesToks ls ++ closeTok :: rest))) = false := by
      rw [eu]; exact schema_not_relation hk _
    have hi := Rel.parseId_name hn (t := openTok) (by decide) (linesToks ls ++ closeTok :: rest)
    have hl := Rel.linesToks_length ls h1
    have hb := Rel.parseUntilBrace_lines ls h1 (linesToks ls ++ closeTok :: rest).length rest
      (by simp; omega)
    have hx : ∀ r, expect .schema ((⟨.schema, schemaWord⟩ : Token) :: r) = some r := fun _ => rfl
    have hy : ∀ r, expect .leftBrace (openTok :: r) = some r := fun _ => rfl
    have hp : parseSchema (⟨.schema, schemaWord⟩ :: (Ext.toksOf name ++ openTok ::
        (linesToks ls ++ closeTok :: rest))) = some ((name, ls.map (·.detail)), rest) := by
      rw [parseSchema, hx, Option.bind_some, hi, Option.bind_some, hy, Option.bind_some, hb]
      rfl
    have n1 : nextIs .pipelines ((⟨.schema, schemaWord⟩ : Token) :: (Ext.toksOf name ++ openTok ::
        (linesToks ls ++ closeTok :: rest))) = false := rfl
    have n2 : nextIs .root ((⟨.schema, schemaWord⟩ : Token) :: (Ext.toksOf name ++ openTok ::
        (linesToks ls ++ closeTok :: rest))) = false := rfl
    have n3 : nextIs .schema ((⟨.schema, schemaWord⟩ : Token) :: (Ext.toksOf name ++ openTok ::
        (linesToks ls ++ closeTok :: rest))) = true := rfl
    rw [parsePlanDetail, hs, n1, n2, n3]
    simp [hp]

end Verif.Sec
