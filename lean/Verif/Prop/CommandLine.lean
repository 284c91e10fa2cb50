import Verif.Model.CommandLine
import Verif.Prop.Tools

/-! # C82: the tools that print plans treat each file by itself and tell whether it worked -/

namespace Verif.CommandLine

open Verif Tools Whole

/-- What a file adds to the standard output of planconverter. -/
def shown : Str × Converted → Str
  | (name, .done text _) => heading name ++ text
  | (name, _) => heading name

/-- What a file adds to its messages. -/
def told : Str × Converted → Str
  | (_, .notLoaded status) => status ++ ['\n']
  | (_, .throws) => []
  | (_, .done _ errors) => errors.flatMap (· ++ ['\n'])

theorem convertAll_append (as bs : List (Str × Converted)) (h : ∀ f ∈ as, f.2 ≠ .throws) :
    convertAll (as ++ bs) = (convertAll bs).after (as.flatMap shown) (as.flatMap told) := by
  induction as with
  | nil => simp [Run.after]
  | cons f as ih =>
    obtain ⟨name, c⟩ := f
    have hi := ih fun x hx => h x (by simp [hx])
    cases c with
    | throws => exact absurd rfl (h (name, .throws) (by simp))
    | notLoaded s => simp [convertAll, hi, Run.after, shown, told, listed]
    | done t es => simp [convertAll, hi, Run.after, shown, told, listed]

/-- **C82** (`_partial`: if no exception leaves the library).  Whatever the arguments and the number of
files, planconverter writes for each file, in their order, what this file alone gives: text to the
standard output, messages to the other one. -/
theorem converter_each_partial (args : List (List (Str × Converted))) (ha : args ≠ [])
    (h : ∀ files ∈ args, ∀ f ∈ files, f.2 ≠ .throws) :
    planconverter args = ⟨args.flatten.flatMap shown, args.flatten.flatMap told, .success⟩ := by
  have h1 : ∀ f ∈ args.flatten, f.2 ≠ .throws := by
    intro f hf
    obtain ⟨files, hm, hf⟩ := List.mem_flatten.mp hf
    exact h files hm f hf
  have := convertAll_append args.flatten [] h1
  unfold planconverter
  rw [if_neg (by simpa using ha)]
  simpa [convertAll, Run.after] using this

/-- What comes after a file that causes an exception is not looked at. -/
theorem converter_stops (as bs : List (Str × Converted)) (name : Str)
    (h : ∀ f ∈ as, f.2 ≠ .throws) :
    convertAll (as ++ (name, .throws) :: bs) =
      ⟨as.flatMap shown ++ heading name, as.flatMap told, .abort⟩ := by
  rw [convertAll_append as _ h]
  simp [convertAll, Run.after]

/-- How planconverter ends: it fails only without arguments. -/
theorem converter_exit (args : List (List (Str × Converted))) :
    ((planconverter args).exit = .failure ↔ args = []) ∧
    ((planconverter args).exit = .success ↔ args ≠ [] ∧ ∀ files ∈ args, ∀ f ∈ files, f.2 ≠ .throws) := by
  have key : ∀ l : List (Str × Converted), (convertAll l).exit ≠ .failure ∧
      ((convertAll l).exit = .success ↔ ∀ f ∈ l, f.2 ≠ .throws) := by
    intro l
    induction l with
    | nil => simp [convertAll]
    | cons f l ih =>
      obtain ⟨name, c⟩ := f
      cases c <;> simp [convertAll, Run.after, ih]
  unfold planconverter
  cases args with
  | nil => simp
  | cons a as =>
    have := key (a :: as).flatten
    rw [if_neg (by simp)]
    refine ⟨⟨fun h => absurd h this.1, fun h => by cases h⟩, ?_⟩
    rw [this.2]
    constructor
    · exact fun h => ⟨by simp, fun files hm f hf => h f (List.mem_flatten.mpr ⟨files, hm, hf⟩)⟩
    · intro h f hf
      obtain ⟨files, hm, hf⟩ := List.mem_flatten.mp hf
      exact h.2 files hm f hf

/-- **C82 is false for the exit code**: planconverter succeeds if no file can be loaded, if all have
errors, and without a word if an argument stands for no file. -/
theorem converter_exit_wrong :
    (planconverter [[("a".toList, .notLoaded "Failed to open file".toList)]]).exit = .success ∧
    (planconverter [[("a".toList, .done [] ["error".toList])]]).exit = .success ∧
    planconverter [[]] = ⟨[], [], .success⟩ := by decide

/-- What a file adds to the standard output of planparser. -/
def parserShown : Str × Parsed → Str
  | (name, .unreadable) => heading name ++ "Bad stream.\n".toList
  | (name, .throws) => heading name
  | (name, .errors ms) => heading name ++ ms.flatMap (· ++ ['\n'])
  | (name, .printed text) => heading name ++ text

/-- **C82** (`_partial`: if no exception leaves the library).  planparser treats each file by itself. -/
theorem parser_each_partial (args : List (Str × Parsed)) (ha : args ≠ [])
    (h : ∀ f ∈ args, f.2 ≠ .throws) :
    (planparser args).out = args.flatMap parserShown ∧ (planparser args).exit = .success := by
  unfold planparser
  rw [if_neg (by simpa using ha)]
  clear ha
  induction args with
  | nil => exact ⟨rfl, rfl⟩
  | cons f l ih =>
    obtain ⟨name, p⟩ := f
    have hi := ih fun x hx => h x (by simp [hx])
    cases p with
    | throws => exact absurd rfl (h (name, .throws) (by simp))
    | _ => simp [parseAll, Run.after, parserShown, listed, hi.1, hi.2]

/-- **C82 is false for planparser**: what it writes does not tell errors from plans. -/
theorem parser_mixed (name : Str) (messages : List Str) (files : List (Str × Parsed)) :
    planparser ((name, .errors messages) :: files) =
      planparser ((name, .printed (messages.flatMap (· ++ ['\n']))) :: files) := by
  simp [planparser, parseAll, listed]

/-- **C82 with the library** (`_partial`: for the plans that text can express, C62).  For a file with
such a plan planconverter prints a text that stands for the same plan. -/
theorem converter_file_partial (lib : Literal.Lib) (hl : lib.Numerals) (sort : Ext.Sorter)
    (hs : Ext.Rearranges sort) (d : Io.Decoders Binary) (other : Binary → Converted) (p : Input)
    (h : Expressible lib p) (fuel : Nat) (hf : (owns p.rel).length ≤ fuel) (content : Option Str)
    (hc : Io.loadPlan (withLoader lib fuel d) content = .ok p.binary) :
    ∃ text out, convertedOf lib sort fuel d other content = .done text [] ∧
      fromText lib fuel text = some (.ok out) ∧ SamePlan p out := by
  obtain ⟨text, out, h1, h2, h3⟩ := binary_text_binary_partial lib hl sort hs p h fuel hf
  refine ⟨text, out, ?_, h2, h3⟩
  unfold convertedOf
  rw [hc]
  simp only [Input.binary, h1]

/-! ## Cases -/

/-- Two arguments, the first one with two files. -/
example : planconverter [[("a".toList, .done "pipelines {}\n".toList []),
      ("b".toList, .notLoaded "no".toList)], [("c".toList, .done "x\n".toList ["e".toList])]] =
    ⟨"===== a =====\npipelines {}\n===== b =====\n===== c =====\nx\n".toList, "no\ne\n".toList,
      .success⟩ := by decide +kernel

/-- A file that can be read, one that cannot and one with errors. -/
example : planparser [("a".toList, .printed "x\n".toList), ("b".toList, .unreadable),
      ("c".toList, .errors ["1:0 → no".toList])] =
    ⟨"===== a =====\nx\n===== b =====\nBad stream.\n===== c =====\n1:0 → no\n".toList,
      "An error occurred while reading: b\n".toList, .success⟩ := by decide +kernel

/-- A plan that text can express, in a binary file. -/
example (other : Binary → Converted) : ∃ d : Io.Decoders Binary, ∃ text out,
    convertedOf Expr.sampleLib id 8 d other (some []) = .done text [] ∧
    fromText Expr.sampleLib 8 text = some (.ok out) ∧ SamePlan (reading "people".toList) out := by
  obtain ⟨hq, hn⟩ := names_ok "people".toList (by simp)
  let d : Io.Decoders Binary := ⟨fun _ => .ok (reading "people".toList).binary,
    fun _ => .error [], fun _ => .error [], fun _ => .error []⟩
  exact ⟨d, converter_file_partial Expr.sampleLib Expr.sampleLib_numerals id (fun l => .refl l) d other _
    (reading_expressible _ hq hn) 8 (by decide) (some []) (by
      have : Io.detectFormat [] = .binary := by decide +kernel
      simp only [Io.loadPlan, this]
      rfl)⟩

end Verif.CommandLine
