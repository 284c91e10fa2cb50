import Verif.Lemmas.LayoutSteps
import Verif.Spec.WholeAgain

/-! # C66: white space and comments between the tokens -/

namespace Verif.Lex

open Verif

/-- **C66** (full, on the texts whose strings are firm).  Texts that differ in the white space and
the comments between their tokens have the same tokens. -/
theorem layout_free {s s' : Str} {ts : List Token} (h : Relaid .default s s' ts)
    (hl : lex s = some ts) : lex s' = some ts := relaid_lex h hl

/-- **C66, one blank is enough.**  Every text without lexical errors has the same tokens as its
tokens written one after the other with one blank before each. -/
theorem layout_spaced {s : Str} {ts : List Token} (hl : lex s = some ts)
    (hf : ∀ t ∈ ts, t.kind = .string → FirmString t.text) :
    Relaid .default s (spaced ts) ts ∧ lex (spaced ts) = some ts := by
  have h := (lexF_laid _ _ _ _ hl).relaid hf
  exact ⟨h, relaid_lex h hl⟩

/-- White space and comments before the first token do not matter, whatever comes behind them. -/
theorem layout_before {g : Str} (h : Gap .default g) (s : Str) : lex (g ++ s) = lex s := lexM_gap h s

/-- Comments between `extension_space` and the brace are no comments: the text has a lexical
error. -/
theorem layout_extensions {g : Str} (h : Gap .extensions g) (r : Str) :
    lex ("extension_space".toList ++ g ++ "//".toList ++ r) = none := by
  have stop : Stop (g ++ "//".toList ++ r) := by
    by_cases hg : g = []
    · subst hg
      intro c hc
      simp at hc
      subst hc
      decide
    · obtain ⟨d, v, rfl, hd⟩ := h.head hg
      intro c hc
      simp at hc
      subst hc
      rcases hd with hd | ⟨hd, -⟩
      · unfold stops; rw [hd]; rfl
      · cases hd
  have h1 : lexOne .default ("extension_space".toList ++ (g ++ "//".toList ++ r)) =
      some (.extensionSpace, "extension_space".toList.length) := by
    have h0 : lexDefault ("extension_space".toList ++ ([] ++ [])) =
      some (.extensionSpace, "extension_space".toList.length) := by decide +kernel
    have := lexDefault_same (by simp) (by simp) rfl h0 stop
    exact this
  have h2 := lexM_step .default _ _ _ (by simp) h1
  have h3 : lexM .extensions ("//".toList ++ r) = none := by
    have hu : uriRule ('/' :: '/' :: r) = none := by
      rw [uriRule_eq]
      have e1 : plainLen ('/' :: '/' :: r) = 0 := rfl
      have e2 : schemeLen ('/' :: '/' :: r) = 0 := rfl
      rw [e1, e2]
      rfl
    have ho : lexOne .extensions ('/' :: '/' :: r) = none := by
      show lexExtensions _ = none
      rw [lexExtensions_eq, hu]
      rfl
    show lexF (r.length + 2) .extensions ('/' :: '/' :: r) = none
    unfold lexF
    rw [ho]
  have e : "extension_space".toList ++ g ++ "//".toList ++ r =
      "extension_space".toList ++ (g ++ "//".toList ++ r) := by simp
  rw [e]
  show lexM .default _ = none
  rw [h2]
  show (lexM .extensions _).map _ = none
  rw [List.append_assoc, lexM_gap h, h3]
  rfl

/-- A string that ends in a backslash and a quote is not firm: a quote in a comment behind it becomes
its end. -/
theorem layout_backslash :
    lex "\"a\\\" x".toList = some [⟨.string, "\"a\\\"".toList⟩, ⟨.identifier, "x".toList⟩] ∧
    lex "\"a\\\" // \"\n x".toList =
      some [⟨.string, "\"a\\\" // \"".toList⟩, ⟨.identifier, "x".toList⟩] := by
  decide +kernel

/-- Two words need something between them. -/
theorem layout_joined :
    lex "a b".toList = some [⟨.identifier, "a".toList⟩, ⟨.identifier, "b".toList⟩] ∧
    lex "ab".toList = some [⟨.identifier, "ab".toList⟩] := by
  decide +kernel

/-- Non-vacuity of `layout_free`. -/
example : ∃ ts, lex "extension_space /a.b{function f as f;}".toList = some ts ∧ ts.length = 9 ∧
    Relaid .default "extension_space /a.b{function f as f;}".toList
      ("//one\nextension_space\n\t/a.b\n{ // \"{\r\n  function  f as\n\nf ; // two\n } //end").toList
      ts := by
  have e : lex "extension_space /a.b{function f as f;}".toList = some
      [⟨.extensionSpace, "extension_space".toList⟩, ⟨.uri, "/a.b".toList⟩, ⟨.leftBrace, "{".toList⟩,
       ⟨.function, "function".toList⟩, ⟨.identifier, "f".toList⟩, ⟨.as, "as".toList⟩,
       ⟨.identifier, "f".toList⟩, ⟨.semicolon, ";".toList⟩, ⟨.rightBrace, "}".toList⟩] := by
    decide +kernel
  refine ⟨_, e, rfl, ?_⟩
  refine Relaid.more (g := []) (g' := "//one\n".toList) (t := ⟨.extensionSpace, "extension_space".toList⟩) (.none _)
    (.comment (c := "one".toList) (end_ := "\n".toList) (by decide) (by decide) (by decide) (.none _))
    (by decide) (fun h => nomatch h) ?_
  refine Relaid.more (g := " ".toList) (g' := "\n\t".toList) (t := ⟨.uri, "/a.b".toList⟩)
    (.blank (by decide) (.none _)) (.blank (by decide) (.blank (by decide) (.none _)))
    (by decide) (fun h => nomatch h) ?_
  refine Relaid.more (g := []) (g' := "\n".toList) (t := ⟨.leftBrace, "{".toList⟩) (.none _)
    (.blank (by decide) (.none _)) (by decide) (fun h => nomatch h) ?_
  refine Relaid.more (g := []) (g' := " // \"{\r\n  ".toList) (t := ⟨.function, "function".toList⟩) (.none _)
    (.blank (by decide) (.comment (c := " \"{".toList) (end_ := "\r\n".toList) (by decide) (by decide)
      (by decide) (.blank (by decide) (.blank (by decide) (.none _)))))
    (by decide) (fun h => nomatch h) ?_
  refine Relaid.more (g := " ".toList) (g' := "  ".toList) (t := ⟨.identifier, "f".toList⟩)
    (.blank (by decide) (.none _)) (.blank (by decide) (.blank (by decide) (.none _)))
    (by decide) (fun h => nomatch h) ?_
  refine Relaid.more (g := " ".toList) (g' := " ".toList) (t := ⟨.as, "as".toList⟩)
    (.blank (by decide) (.none _)) (.blank (by decide) (.none _)) (by decide) (fun h => nomatch h) ?_
  refine Relaid.more (g := " ".toList) (g' := "\n\n".toList) (t := ⟨.identifier, "f".toList⟩)
    (.blank (by decide) (.none _)) (.blank (by decide) (.blank (by decide) (.none _)))
    (by decide) (fun h => nomatch h) ?_
  refine Relaid.more (g := []) (g' := " ".toList) (t := ⟨.semicolon, ";".toList⟩)
    (.none _) (.blank (by decide) (.none _)) (by decide) (fun h => nomatch h) ?_
  refine Relaid.more (g := []) (g' := " // two\n ".toList) (t := ⟨.rightBrace, "}".toList⟩) (.none _)
    (.blank (by decide) (.comment (c := " two".toList) (end_ := "\n".toList) (by decide) (by decide)
      (by decide) (.blank (by decide) (.none _))))
    (by decide) (fun h => nomatch h) ?_
  exact .done (.gap (.none _)) (.comment (g := " ".toList) (c := "end".toList)
    (.blank (by decide) (.none _)) (by decide) (by decide))

/-- Non-vacuity of `layout_spaced`: strings of all kinds. -/
example : ∃ ts, lex "x//c\n=\"a\\\"b\"`c` ``d`` ```e```".toList = some ts ∧ ts.length = 6 ∧
    ∀ t ∈ ts, t.kind = .string → FirmString t.text := by
  have e : lex "x//c\n=\"a\\\"b\"`c` ``d`` ```e```".toList = some
      [⟨.identifier, "x".toList⟩, ⟨.equal, "=".toList⟩, ⟨.string, "\"a\\\"b\"".toList⟩,
       ⟨.string, "`c`".toList⟩, ⟨.string, "``d``".toList⟩, ⟨.string, "```e```".toList⟩] := by
    decide +kernel
  refine ⟨_, e, rfl, ?_⟩
  intro t ht hk
  simp only [List.mem_cons, List.not_mem_nil, or_false] at ht
  rcases ht with rfl | rfl | rfl | rfl | rfl | rfl
  · cases hk
  · cases hk
  · exact .inl ⟨"a\\\"b".toList, rfl, by decide⟩
  · exact .inr (.inl (by decide))
  · exact .inr (.inl (by decide))
  · exact .inr (.inr ⟨"e".toList, by decide, rfl⟩)

end Verif.Lex

namespace Verif.Whole

open Verif

/-- **C66, for plans.**  The text of a plan can be laid out in another way and commented, and gives
the same binary plan. -/
theorem layout_plan (lib : Literal.Lib) (fuel : Nat) {text text' : Str} {ts : List Lex.Token}
    (h : Lex.Relaid .default text text' ts) (hl : Lex.lex text = some ts) :
    fromText lib fuel text' = fromText lib fuel text := by
  unfold fromText Sec.detailsOf
  rw [hl, Lex.layout_free h hl]

/-- **C66, for printed plans.**  What is printed for a plan can be laid out and commented by hand and
still is read as the same plan. -/
theorem layout_trip {lib : Literal.Lib} {sort : Ext.Sorter} {fuel : Nat} {p q : Input}
    {text text' : Str} {ts : List Lex.Token} (ht : Trip lib sort fuel p text q)
    (h : Lex.Relaid .default text text' ts) (hl : Lex.lex text = some ts) :
    fromText lib fuel text' = some (.ok q.binary) := by
  rw [layout_plan lib fuel h hl]
  exact ht.2

end Verif.Whole
