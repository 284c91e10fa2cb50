import Verif.Lemmas.Pipeline
import Verif.Lemmas.Extension

/-!
# The text of a pipelines section
-/

namespace Verif.Pipe

open Verif Lex Parse
open Verif.Ext (toksOf lexes_word lexes_blank1)

theorem IsName.name {s : Str} (h : IsName s) : Name s (toksOf s) := Ext.IsName.name h

/-! ## Tokens -/

/-- The tokens after the first name. -/
def restToks (ns : List Str) : List Token :=
  (ns.map fun m => ⟨.arrow, "->".toList⟩ :: toksOf m).flatten

/-- The tokens of one line. -/
def lineToks (p : List Str) : List Token :=
  match p with
  | [] => [⟨.semicolon, [';']⟩]
  | n :: ns => toksOf n ++ (restToks ns ++ [⟨.semicolon, [';']⟩])

/-- The tokens of a section. -/
def sectionToks (ps : List (List Str)) : List Token :=
  ⟨.pipelines, "pipelines".toList⟩ :: ⟨.leftBrace, ['{']⟩ ::
    ((ps.map lineToks).flatten ++ [⟨.rightBrace, ['}']⟩])

theorem lexes_end (ok : Str → Prop) : Lexes ";\n".toList [⟨.semicolon, [';']⟩] ok := by
  have e : ";\n".toList = [';'] ++ ['\n'] := by decide
  rw [e]
  have := Lexes.append (lexes_sign ';' .semicolon (by simp [signs]) rfl (fun _ => True))
      (lexes_blank '\n' (.inr rfl) ok) (fun _ _ => trivial)
  simpa using this

theorem lexes_rest : ∀ (ns : List Str), (∀ n ∈ ns, IsName n) →
    Lexes (ns.map fun m => " -> ".toList ++ m).flatten (restToks ns) NameEnd
  | [], _ => Lexes.nil _
  | n :: ns, h => by
    have ih := lexes_rest ns fun m hm => h m (by simp [hm])
    have a1 := Lexes.append (lexes_arrow (fun _ => True)) (lexes_blank1 (fun _ => True))
      (fun _ _ => trivial)
    have a2 := Lexes.append (lexes_blank1 (fun _ => True)) a1 (fun _ _ => trivial)
    have a3 := Lexes.append a2 (h n (by simp)).name.lexes_ (fun _ _ => trivial)
    have a4 := Lexes.append a3 ih (fun rest hr => by
      cases ns with
      | nil => exact hr
      | cons m ns => exact nameEnd_cons ' ' _ (by decide))
    simp only [List.map_cons, List.flatten_cons, restToks]
    simpa [restToks] using a4

theorem lexes_lineText : ∀ (p : List Str), (∀ n ∈ p, IsName n) → ∀ ok,
    Lexes (lineText p) (lineToks p) ok
  | [], _, ok => lexes_end ok
  | n :: ns, h, ok => by
    have e : "  ".toList = [' '] ++ [' '] := by decide
    have a0 := Lexes.append (lexes_blank1 (fun _ => True)) (lexes_blank1 (fun _ => True))
      (fun _ _ => trivial)
    have a1 := Lexes.append a0 (h n (by simp)).name.lexes_ (fun _ _ => trivial)
    have a2 := Lexes.append a1 (lexes_rest ns fun m hm => h m (by simp [hm])) (fun rest hr => by
      cases ns with
      | nil => exact hr
      | cons m ns => exact nameEnd_cons ' ' _ (by decide))
    have a3 := Lexes.append a2 (lexes_end ok) (fun rest _ => nameEnd_cons ';' _ (by decide))
    unfold lineText lineToks
    rw [e]
    simpa using a3

theorem lexes_lineTexts : ∀ (ps : List (List Str)), (∀ p ∈ ps, ∀ n ∈ p, IsName n) → ∀ ok,
    Lexes (ps.map lineText).flatten (ps.map lineToks).flatten ok
  | [], _, ok => Lexes.nil ok
  | p :: ps, h, ok => by
    simp only [List.map_cons, List.flatten_cons]
    exact Lexes.append (lexes_lineText p (h p (by simp)) (fun _ => True))
      (lexes_lineTexts ps (fun q hq => h q (by simp [hq])) ok) (fun _ _ => trivial)

theorem lexes_sectionText (ps : List (List Str)) (hne : ps ≠ [])
    (h : ∀ p ∈ ps, ∀ n ∈ p, IsName n) (ok : Str → Prop) :
    Lexes (sectionText ps) (sectionToks ps) ok := by
  have e1 : "pipelines {\n".toList = "pipelines".toList ++ ([' '] ++ (['{'] ++ ['\n'])) := by decide
  have e2 : "}\n".toList = ['}'] ++ ['\n'] := by decide
  have w : Lexes "pipelines".toList [⟨.pipelines, "pipelines".toList⟩] NameEnd :=
    lexes_word _ 'p' "ipelines".toList .pipelines (by decide) (by decide) (by decide +kernel)
      (by simp) rfl
  have a1 := Lexes.append (lexes_sign '{' .leftBrace (by simp [signs]) rfl (fun _ => True))
      (lexes_blank '\n' (.inr rfl) (fun _ => True)) (fun _ _ => trivial)
  have a2 := Lexes.append (lexes_blank1 (fun _ => True)) a1 (fun _ _ => trivial)
  have a3 := Lexes.append w a2 (fun rest _ => nameEnd_cons ' ' _ (by decide))
  have b := Lexes.append (lexes_sign '}' .rightBrace (by simp [signs]) rfl (fun _ => True))
      (lexes_blank '\n' (.inr rfl) ok) (fun _ _ => trivial)
  have c := Lexes.append a3 (Lexes.append (lexes_lineTexts ps h (fun _ => True)) b
    (fun _ _ => trivial)) (fun _ _ => trivial)
  unfold sectionText sectionToks
  rw [if_neg hne, e1, e2]
  generalize "pipelines".toList = a at *
  simpa using c

/-! ## Parsing -/

theorem parseRef_name {n : Str} (h : IsName n) (t : Token) (r : List Token)
    (ht : t.kind = .arrow ∨ t.kind = .semicolon) :
    parseRef (toksOf n ++ t :: r) = some (⟨n, n⟩, t :: r) := by
  have hu : nextIs .underscore (t :: r) = false := by
    rcases ht with ht | ht <;> simp [nextIs, ht]
  unfold parseRef
  rw [h.name.parse_append (t :: r) hu]
  have hp : ¬ t.kind = .leftParen := by rcases ht with ht | ht <;> simp [ht]
  cases r with
  | nil => rfl
  | cons b r => simp [hp]

theorem restToks_head (ns : List Str) (x : List Token) : ∃ t r,
    restToks ns ++ ⟨.semicolon, [';']⟩ :: x = t :: r ∧ (t.kind = .arrow ∨ t.kind = .semicolon) := by
  cases ns with
  | nil => exact ⟨_, _, rfl, .inr rfl⟩
  | cons n ns => exact ⟨_, _, rfl, .inl rfl⟩

theorem parsePipeline_toks : ∀ (ns : List Str), (∀ n ∈ ns, IsName n) → ∀ (f : Nat)
    (acc : List Ref) (r : List Token), ns.length < f →
    parsePipeline f acc (restToks ns ++ ⟨.semicolon, [';']⟩ :: r) =
      some ((ns.map fun n => ⟨n, n⟩).reverse ++ acc, r)
  | [], _, f, acc, r, hf => by
    obtain ⟨g, rfl⟩ : ∃ g, f = g + 1 := ⟨f - 1, by simp at hf; omega⟩
    rw [parsePipeline, restToks]
    simp [nextIs, expect]
  | n :: ns, h, f, acc, r, hf => by
    obtain ⟨g, rfl⟩ : ∃ g, f = g + 1 := ⟨f - 1, by simp at hf; omega⟩
    have ih := parsePipeline_toks ns (fun m hm => h m (by simp [hm])) g (⟨n, n⟩ :: acc) r
      (by simp at hf; omega)
    have e : restToks (n :: ns) ++ ⟨.semicolon, [';']⟩ :: r =
        ⟨.arrow, "->".toList⟩ :: (toksOf n ++ (restToks ns ++ ⟨.semicolon, [';']⟩ :: r)) := by
      simp [restToks]
    obtain ⟨t, r', e', ht⟩ := restToks_head ns r
    rw [e, parsePipeline, if_pos (by simp [nextIs]), List.tail_cons, e',
      parseRef_name (h n (by simp)) t r' ht, Option.bind_some]
    show parsePipeline g (⟨n, n⟩ :: acc) (t :: r') = _
    rw [← e', ih]
    simp

theorem restToks_length (ns : List Str) : ns.length ≤ (restToks ns).length := by
  induction ns with
  | nil => simp
  | cons n ns ih =>
    simp only [restToks, List.map_cons, List.flatten_cons, List.length_append, List.length_cons] at *
    omega

theorem name_head_simple {n : Str} (h : IsName n) (x : List Token) :
    nextIs .rightBrace (toksOf n ++ x) = false := by
  obtain ⟨t, r, e, hk⟩ := h.name.head
  rw [e]
  simp only [List.cons_append, nextIs, decide_eq_false_iff_not]
  intro e; rw [e] at hk; exact absurd hk (by decide)

theorem parsePipelines_toks : ∀ (ps : List (List Str)), (∀ p ∈ ps, ∀ n ∈ p, IsName n) →
    (∀ p ∈ ps, p ≠ []) → ∀ (f : Nat) (rest : List Token), (ps.map lineToks).flatten.length < f →
    parsePipelines f ((ps.map lineToks).flatten ++ ⟨.rightBrace, ['}']⟩ :: rest) =
      some (ps.map refs, rest)
  | [], _, _, f, rest, hf => by
    obtain ⟨g, rfl⟩ : ∃ g, f = g + 1 := ⟨f - 1, by simp at hf; omega⟩
    simp [parsePipelines, nextIs]
  | [] :: ps, _, hne, f, rest, hf => absurd rfl (hne [] (by simp))
  | (n :: ns) :: ps, h, hne, f, rest, hf => by
    obtain ⟨g, rfl⟩ : ∃ g, f = g + 1 := ⟨f - 1, by simp at hf; omega⟩
    simp only [List.map_cons, List.flatten_cons, lineToks, List.length_append, List.length_cons,
      List.length_nil] at hf
    have hl := restToks_length ns
    have hn := h (n :: ns) (by simp)
    have ih := parsePipelines_toks ps (fun p hp => h p (by simp [hp]))
      (fun p hp => hne p (by simp [hp])) g rest (by omega)
    have e : ((((n :: ns) :: ps).map lineToks).flatten ++ ⟨.rightBrace, ['}']⟩ :: rest) =
        toksOf n ++ (restToks ns ++ ⟨.semicolon, [';']⟩ ::
          ((ps.map lineToks).flatten ++ ⟨.rightBrace, ['}']⟩ :: rest)) := by
      simp [lineToks]
    obtain ⟨t, r', e', ht⟩ := restToks_head ns ((ps.map lineToks).flatten ++ ⟨.rightBrace, ['}']⟩ :: rest)
    rw [e, parsePipelines, name_head_simple (hn n (by simp))]
    simp only [Bool.false_eq_true, if_false]
    rw [e', parseRef_name (hn n (by simp)) t r' ht, Option.bind_some]
    show (parsePipeline g [⟨n, n⟩] (t :: r')).bind _ = _
    rw [← e', parsePipeline_toks ns (fun m hm => hn m (by simp [hm])) g _ _ (by omega)]
    simp only [Option.bind_some, ih, Option.map_some, List.map_cons]
    simp [refs]

theorem pipelinesOf_section (ps : List (List Str)) (hne : ps ≠ [])
    (h : ∀ p ∈ ps, ∀ n ∈ p, IsName n) (hp : ∀ p ∈ ps, p ≠ []) :
    pipelinesOf (sectionText ps) = some (ps.map refs) := by
  have h1 := lexes_sectionText ps hne h (fun _ => True) [] trivial
  have h2 : lex [] = some [] := by decide +kernel
  rw [List.append_nil, h2, Option.map_some, List.append_nil] at h1
  unfold pipelinesOf
  rw [h1, Option.bind_some]
  have : parseSection (sectionToks ps) = some (ps.map refs, []) := by
    unfold parseSection sectionToks
    simp only [expect, if_true, Option.bind_some]
    exact parsePipelines_toks ps h hp _ [] (by simp only [List.length_append]; omega)
  rw [this]
  rfl

end Verif.Pipe
