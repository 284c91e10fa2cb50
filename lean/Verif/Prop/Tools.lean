import Verif.Model.Tools
import Verif.Spec.Tools
import Verif.Prop.Io
import Verif.Prop.Whole
import Verif.Lemmas.OrderRead

/-! # C68: plan files and the tool that converts them -/

namespace Verif.Tools

open Verif Verif.Whole Verif.Io

/-! ## The tool -/

/-- **C68, the exit code.**  The tool says that all went well exactly if the first file could be
loaded and the plan could be saved, and then the second file holds exactly the encoding of the plan
in the first one. -/
theorem transform_success {Plan : Type} (d : Decoders Plan) (enc : Encoders Plan) (e : Io.Env)
    (input output : Option Str) (word : Str) :
    ((transform d enc e input output word).1 = .success ↔
      ∃ p, loadPlan d input = .ok p ∧
        (savePlan enc e p (planFileFormatFromText word) output).1 = .ok) ∧
    ((transform d enc e input output word).1 = .success →
      ∃ p out, loadPlan d input = .ok p ∧ enc.output p (planFileFormatFromText word) = some out ∧
        (transform d enc e input output word).2 = some out) := by
  unfold transform
  cases hl : loadPlan d input with
  | error m => simp
  | ok p =>
    have hx : ∀ r, exitOf r = .success ↔ r = .ok := by intro r; cases r <;> simp [exitOf]
    refine ⟨by simp [hx], fun h => ?_⟩
    obtain ⟨out, h1, h2⟩ := save_ok enc e p _ output ((hx _).1 h)
    exact ⟨p, out, rfl, h1, h2⟩

/-- **C68, nothing is written if the plan cannot be loaded.** -/
theorem transform_unloaded {Plan : Type} (d : Decoders Plan) (enc : Encoders Plan) (e : Io.Env)
    (input output : Option Str) (word m : Str) (h : loadPlan d input = .error m) :
    transform d enc e input output word = (.failure, output) := by
  unfold transform; rw [h]

/-! ## Texts are not taken for binary plans -/

theorem separated_starts (t : Str) (ts : List Str) : t <+: Sec.separated (t :: ts) := by
  cases ts with
  | nil => exact List.prefix_refl t
  | cons u us => exact List.prefix_append t _

theorem planText_starts (sections : List Str) (s : Str) (rest : List Str)
    (h : sections = s :: rest) (hs : s ≠ []) : s <+: Sec.planText sections := by
  subst h
  unfold Sec.planText
  have : (!s.isEmpty) = true := by cases s <;> simp_all
  rw [List.filter_cons_of_pos (by exact this)]
  exact separated_starts _ _

theorem textLine_atStart {s : Str} (h : TextLine s) : AtLine TextLine s :=
  ⟨[], s, rfl, Or.inl rfl, h⟩

theorem textLine_more {s t : Str} (h : TextLine s) (ht : s <+: t) : TextLine t := by
  obtain ⟨n, rest, rfl, h⟩ := h
  obtain ⟨u, rfl⟩ := ht
  refine ⟨n, rest ++ u, by simp, ?_⟩
  rcases h with ⟨w, hw, hp⟩ | ⟨word, k, h1, h2, hp⟩
  · exact Or.inl ⟨w, hw, hp.trans (List.prefix_append _ _)⟩
  · exact Or.inr ⟨word, k, h1, h2, hp.trans (List.prefix_append _ _)⟩

theorem kindText_word (k : Enum.RelType) :
    Rel.kindText k ≠ [] ∧ ∀ c ∈ Rel.kindText k, 'a' ≤ c ∧ c ≤ 'z' := by
  cases k <;> decide

theorem relation_line (k : Enum.RelType) (rest : Str) :
    TextLine (Rel.kindText k ++ (" relation ".toList ++ rest)) := by
  refine ⟨0, _, rfl, Or.inr ⟨Rel.kindText k, 1, (kindText_word k).1, (kindText_word k).2, ?_⟩⟩
  refine ⟨' ' :: rest, ?_⟩
  show (Rel.kindText k ++ [' ']) ++ "relation".toList ++ ' ' :: rest = _
  simp

theorem relation_starts (c : Rel.RelContext) (r : Rel.PbRel) {x : Str × List Rel.PrintErr}
    (h : Rel.printRelation c r = .ok x) (he : x.2.isEmpty = true) : TextLine x.1 := by
  unfold Rel.printRelation at h
  split at h
  · cases h; cases he
  · unfold Rel.Text.and at h
    rw [Outcome.bind_ok] at h
    obtain ⟨y, -, rfl⟩ := Outcome.of_map h
    simp only [List.append_assoc]
    exact relation_line _ _

theorem nodeText_starts {s : Setting} {outer : Str → List Schema.RelData} {x : Node} {t : Str}
    (h : nodeText s outer x = .ok t) : TextLine t := by
  obtain ⟨r, h1, h2⟩ := Outcome.of_bind h
  split at h2
  · cases h2
    exact relation_starts _ _ h1 (by assumption)
  · cases h2

theorem textLine_ne {t : Str} (h : TextLine t) : t ≠ [] := by
  rintro rfl
  obtain ⟨n, rest, h1, h2⟩ := h
  have hr : rest = [] := by
    have := congrArg List.length h1
    simp only [List.length_nil, List.length_append, List.length_replicate] at this
    exact List.eq_nil_of_length_eq_zero (by omega)
  subst hr
  rcases h2 with ⟨w, hw, hp⟩ | ⟨word, k, hne, -, hp⟩
  · revert w; decide
  · have := hp.length_le
    simp at this

theorem nodes_ne {r : NRel} {x : List Node × Schema.RelData} (h : nodes r = .ok x) : x.1 ≠ [] := by
  cases r with
  | node n o kids =>
    unfold nodes at h
    obtain ⟨a, -, h⟩ := Outcome.of_bind h
    obtain ⟨d, -, h⟩ := Outcome.of_bind h
    split at h
    · cases h; simp
    · cases h

def pipelinesWord : Str := "pipelines".toList
def startBrace : Str := " {\n".toList

theorem word_brace : pipelinesWord ++ startBrace = "pipelines {\n".toList := by decide

theorem pipelines_line (rest : Str) : TextLine (pipelinesWord ++ rest) :=
  ⟨0, pipelinesWord ++ rest, by rw [List.replicate_zero, List.nil_append],
    Or.inl ⟨"pipelines", by simp, List.prefix_append _ _⟩⟩

/-- **C68, texts are never taken for binary plans.**  Whatever the plan: the first line of its text
starts a section of a text plan. -/
theorem text_detected (lib : Literal.Lib) (sort : Ext.Sorter) (fuel : Nat) (p : Input) (text : Str)
    (h : toText lib sort fuel p = .ok text) : AtLine TextLine text := by
  unfold toText treeText at h
  obtain ⟨x, hx, h⟩ := Outcome.of_bind h
  obtain ⟨ps, -, h⟩ := Outcome.of_bind h
  obtain ⟨texts, ht, h⟩ := Outcome.of_bind h
  obtain ⟨bs, -, h⟩ := Outcome.of_bind h
  obtain ⟨sources, -, rfl⟩ := Outcome.of_map h
  apply textLine_atStart
  by_cases hp : ps = []
  · subst hp
    obtain ⟨y, ys, hy⟩ : ∃ y ys, x.1 = y :: ys := by
      cases hc : x.1 with
      | nil => exact absurd hc (nodes_ne hx)
      | cons y ys => exact ⟨y, ys, rfl⟩
    rw [hy, Outcome.mapM_cons] at ht
    obtain ⟨t, ht1, ht⟩ := Outcome.of_bind ht
    obtain ⟨ts, -, ht⟩ := Outcome.of_bind ht
    cases ht
    have hl := nodeText_starts ht1
    have hs := separated_starts t ts
    refine textLine_more hl (hs.trans ?_)
    have hne : Sec.separated (t :: ts) ≠ [] := textLine_ne (textLine_more hl hs)
    unfold Sec.planText
    rw [List.filter_cons_of_neg (by simp [Pipe.sectionText])]
    exact planText_starts _ _ _ rfl hne
  · have hps : Pipe.sectionText ps = pipelinesWord ++ (startBrace ++
        ((ps.map Pipe.lineText).flatten ++ "}\n".toList)) := by
      rw [Pipe.sectionText, if_neg hp, ← word_brace]
      simp only [List.append_assoc]
    refine textLine_more ?_ (planText_starts _ _ _ rfl ?_) <;> rw [hps]
    · exact pipelines_line _
    · exact textLine_ne (pipelines_line _)

/-! ## Through a text file -/

theorem textResult_text {lib : Literal.Lib} {sort : Ext.Sorter} {fuel : Nat}
    {other : Binary → TextResult} {p : Input} {text : Str} (h : toText lib sort fuel p = .ok text) :
    textResult lib sort fuel other p.binary = .printed text 0 := by
  unfold textResult Input.binary
  simp only
  rw [h]

/-- **C68, success.**  If a plan is reported as saved as text, it has a text, and the file is this
text. -/
theorem saved_text {lib : Literal.Lib} {sort : Ext.Sorter} {fuel : Nat} {enc : Encoders Binary}
    {other : Binary → TextResult} {e : Io.Env} {p : Input} {file : Option Str}
    (h : (savePlan (withSaver lib sort fuel enc other) e p.binary .text file).1 = .ok) :
    ∃ text, toText lib sort fuel p = .ok text ∧
      (savePlan (withSaver lib sort fuel enc other) e p.binary .text file).2 = some text := by
  obtain ⟨out, h1, h2⟩ := save_ok _ _ _ _ _ h
  cases ht : toText lib sort fuel p with
  | ok text =>
    simp only [Encoders.output, withSaver, textResult_text ht, Option.some.injEq] at h1
    exact ⟨text, rfl, by rw [h2, h1]⟩
  | throw x => simp [Encoders.output, withSaver, textResult, Input.binary, ht] at h1
  | ub => simp [Encoders.output, withSaver, textResult, Input.binary, ht] at h1

/-- **C68, exceptions.**  If the conversion to text throws, so does the save, and the file is empty. -/
theorem unsaved_text {lib : Literal.Lib} {sort : Ext.Sorter} {fuel : Nat} {enc : Encoders Binary}
    {other : Binary → TextResult} {e : Io.Env} {p : Input} {file : Option Str} {x : Exc}
    (he : e.openOk = true) (h : toText lib sort fuel p = .throw x) :
    savePlan (withSaver lib sort fuel enc other) e p.binary .text file = (.thrown, some []) := by
  have h1 : textResult lib sort fuel other p.binary = .throws := by
    unfold textResult Input.binary
    simp only
    rw [h]
  simp [savePlan, saveText, withSaver, h1, he]

/-- **C68** (`_partial`: for the plans that text can express, C62, whose text is not mistaken for
JSON or for the protobuf text format).  A plan that is saved as text and loaded again is the same
plan, whatever was in the file before and whatever the other codecs do. -/
theorem text_file_partial (lib : Literal.Lib) (hl : lib.Numerals) (sort : Ext.Sorter)
    (hs : Ext.Rearranges sort) (d : Decoders Binary) (enc : Encoders Binary)
    (other : Binary → TextResult) (p : Input) (h : Expressible lib p) (fuel : Nat)
    (hf : (owns p.rel).length ≤ fuel) (file : Option Str) :
    ∃ text, (∀ e : Io.Env, e.Works text →
        savePlan (withSaver lib sort fuel enc other) e p.binary .text file = (.ok, some text)) ∧
      (Unmistakable text → ∃ b, loadPlan (withLoader lib fuel d) (some text) = .ok b ∧
        SamePlan p b) := by
  obtain ⟨text, out, h1, h2, h3⟩ := binary_text_binary_partial lib hl sort hs p h fuel hf
  refine ⟨text, ?_, fun hu => ⟨out, ?_, h3⟩⟩
  · intro e he
    exact save_succeeds _ _ _ _ _ _ he (by simp only [Encoders.output, withSaver, textResult_text h1])
      fun _ => textResult_text (other := other) h1
  · rw [loadPlan_text _ _ ((detect_iff text).2.2.1.2 ⟨hu.json, hu.proto, text_detected _ _ _ _ _ h1⟩)]
    show loadFromText lib fuel text = _
    unfold loadFromText
    rw [h2]

/-- **C68, the tool** (`_partial` like the theorem before).  A file in whatever format whose plan
text can express is converted to text by the tool; converting the result to a binary file gives the
same plan. -/
theorem tool_trip_partial (lib : Literal.Lib) (hl : lib.Numerals) (sort : Ext.Sorter)
    (hs : Ext.Rearranges sort) (d : Decoders Binary) (enc : Encoders Binary)
    (other : Binary → TextResult) (p : Input) (h : Expressible lib p) (fuel : Nat)
    (hf : (owns p.rel).length ≤ fuel) (input file file' : Option Str)
    (hi : loadPlan (withLoader lib fuel d) input = .ok p.binary) :
    ∃ text, (∀ e : Io.Env, e.Works text →
        transform (withLoader lib fuel d) (withSaver lib sort fuel enc other) e input file
          "text".toList = (.success, some text)) ∧
      (Unmistakable text → ∃ b, SamePlan p b ∧ ∀ e : Io.Env, e.Works (enc.binary b) →
        transform (withLoader lib fuel d) (withSaver lib sort fuel enc other) e (some text) file'
          "binary".toList = (.success, some (enc.binary b))) := by
  obtain ⟨text, h1, h2⟩ := text_file_partial lib hl sort hs d enc other p h fuel hf file
  have ht : planFileFormatFromText "text".toList = .text := by decide
  have hb : planFileFormatFromText "binary".toList = .binary := by decide
  refine ⟨text, ?_, fun hu => ?_⟩
  · intro e he
    unfold transform
    rw [hi]
    simp only [ht, h1 e he, exitOf]
  · obtain ⟨b, h3, h4⟩ := h2 hu
    refine ⟨b, h4, fun e he => ?_⟩
    unfold transform
    rw [h3]
    simp only [hb]
    rw [save_succeeds _ _ _ _ _ (enc.binary b) he rfl (fun h => by cases h)]
    rfl

/-! ### Non-vacuity, and texts that are mistaken -/

/-- A table with this name. -/
def tableNamed (name : Str) : BRel :=
  .node ⟨.read none none none none false, [], some (sampleSchema "a" "b"), some (.named [name])⟩ []

/-- A plan that reads it. -/
def reading (name : Str) : Input := { sampleInput with rel := tableNamed name }

theorem tableNamed_fits (name : Str) (h : Sec.Quotable name) {up : List Nat} :
    TreeFits Expr.sampleLib sampleKnown up (tableNamed name) :=
  ⟨⟨rfl, fun _ h => by cases h⟩,
    ⟨⟨_, rfl, sample_schema (whole_names _ (by decide)) (whole_names _ (by decide)) (by decide)
      (by decide) (by decide)⟩, _, rfl, .named _ (by simp) (by
        intro n hn
        simp only [List.mem_cons, List.not_mem_nil, or_false] at hn
        rw [hn]
        exact h)⟩,
    ⟨rfl, fun _ => rfl⟩, (by decide : 0 + 0 < 2147483648), trivial⟩

theorem reading_expressible (name : Str) (hq : Sec.Quotable name) (hn : NamesFit (reading name)) :
    Expressible Expr.sampleLib (reading name) where
  tree := tableNamed_fits name hq
  functions := ⟨sample_functions.anchors, sample_functions.symbols, sample_functions.distinct,
    sample_functions.uris, sample_functions.named, sample_functions.typed⟩
  names := hn
  root := sampleInput_expressible.root

theorem reading_names (name : Str)
    (h : bases.all (fun b => !b.isPrefixOf name) = true ∧ name ≠ Sec.rootNamesName ∧
      ∀ f ∈ sampleInput.table.funs, f.symbol ≠ name) : NamesFit (reading name) where
  columns := by
    intro n hn
    apply not_madeUp
    have : n ∈ ["a".toList, "b".toList] := hn
    clear hn
    revert n
    decide +kernel
  tables := by
    intro n hn
    have hn : n ∈ [name] := hn
    simp only [List.mem_cons, List.not_mem_nil, or_false] at hn
    subst hn
    exact ⟨not_madeUp h.1, h.2.1, List.not_mem_nil⟩
  uris := sample_namesFit.uris
  files := List.nodup_nil
  functions := by
    intro f hf
    refine ⟨(sample_namesFit.functions f hf).1, ?_, ?_, (sample_namesFit.functions f hf).2.2.2⟩
    · have : Whole.columns (reading name).rel = ["a".toList, "b".toList] := rfl
      rw [this]
      have hf' : f ∈ sampleInput.table.funs := hf
      rw [sample_funs] at hf'
      clear this h hf
      revert f
      decide +kernel
    · have : Whole.tables (reading name).rel = [name] := rfl
      rw [this]
      simpa using h.2.2 f hf

/-- One of the words starts somewhere in the text. -/
def anywhere (ws : List Str) : Str → Bool
  | [] => false
  | c :: cs => ws.any (fun w => w.isPrefixOf (c :: cs)) || anywhere ws cs

/-- One of the words starts a line of the text; `fresh` tells whether this is the start of one. -/
def onLine (ws : List Str) (fresh : Bool) : Str → Bool
  | [] => false
  | c :: cs => (fresh && ws.any fun w => w.isPrefixOf (c :: cs)) || onLine ws (c = '\n') cs

def jsonWords : List Str :=
  ["\"extensionUris\"".toList, "\"extension_uris\"".toList, "\"extensions\"".toList,
    "\"relations\"".toList]

def protoWords : List Str :=
  ["relations {".toList, "extensions {".toList, "extension_uris {".toList,
    "expected_type_urls {".toList]

theorem anywhere_iff {ws : List Str} (hw : [] ∉ ws) : ∀ s : Str,
    anywhere ws s = true ↔ ∃ w ∈ ws, w <:+: s
  | [] => by
    simp only [anywhere, Bool.false_eq_true, false_iff]
    rintro ⟨w, h, h'⟩
    rw [List.infix_nil] at h'
    exact hw (h' ▸ h)
  | c :: cs => by
    simp only [anywhere, Bool.or_eq_true, List.any_eq_true, List.isPrefixOf_iff_prefix,
      anywhere_iff hw cs, List.infix_cons_iff]
    constructor
    · rintro (⟨w, h, h'⟩ | ⟨w, h, h'⟩)
      · exact ⟨w, h, Or.inl h'⟩
      · exact ⟨w, h, Or.inr h'⟩
    · rintro ⟨w, h, h' | h'⟩
      · exact Or.inl ⟨w, h, h'⟩
      · exact Or.inr ⟨w, h, h'⟩

theorem onLine_iff {ws : List Str} (hw : [] ∉ ws) : ∀ (s : Str) (fresh : Bool),
    onLine ws fresh s = true ↔ ∃ a b, s = a ++ b ∧
      ((a = [] ∧ fresh = true) ∨ a.getLast? = some '\n') ∧ ∃ w ∈ ws, w <+: b
  | [], fresh => by
    simp only [onLine, Bool.false_eq_true, false_iff]
    rintro ⟨a, b, h, -, w, hw', hp⟩
    obtain ⟨rfl, rfl⟩ := List.append_eq_nil_iff.1 h.symm
    rw [List.prefix_nil] at hp
    exact hw (hp ▸ hw')
  | c :: cs, fresh => by
    simp only [onLine, Bool.or_eq_true, Bool.and_eq_true, List.any_eq_true,
      List.isPrefixOf_iff_prefix, onLine_iff hw cs, decide_eq_true_eq]
    constructor
    · rintro (⟨hf, w, h, h'⟩ | ⟨a, b, rfl, h, hp⟩)
      · exact ⟨[], c :: cs, rfl, Or.inl ⟨rfl, hf⟩, w, h, h'⟩
      · refine ⟨c :: a, b, rfl, Or.inr ?_, hp⟩
        rcases h with ⟨rfl, rfl⟩ | h
        · rfl
        · cases a with
          | nil => cases h
          | cons d ds => rw [List.getLast?_cons_cons]; exact h
    · rintro ⟨a, b, he, h, w, h1, h2⟩
      cases a with
      | nil =>
        rcases h with ⟨-, h⟩ | h
        · exact Or.inl ⟨h, w, h1, by rw [he]; exact h2⟩
        · cases h
      | cons d ds =>
        injection he with h3 h4
        subst h3 h4
        refine Or.inr ⟨ds, b, rfl, ?_, w, h1, h2⟩
        cases ds with
        | nil =>
          rcases h with ⟨h, -⟩ | h
          · cases h
          · exact Or.inl ⟨rfl, by injection h⟩
        | cons e es =>
          rcases h with ⟨h, -⟩ | h
          · cases h
          · rw [List.getLast?_cons_cons] at h
            exact Or.inr h

theorem json_iff (s : Str) : HasJsonWord s ↔ anywhere jsonWords s = true := by
  rw [anywhere_iff (by decide)]
  unfold HasJsonWord jsonWords
  constructor
  · rintro ⟨w, h, hi⟩
    refine ⟨_, ?_, hi⟩
    clear hi
    revert w
    decide
  · rintro ⟨w, h, hi⟩
    simp only [List.mem_cons, List.not_mem_nil, or_false] at h
    rcases h with rfl | rfl | rfl | rfl
    · exact ⟨"extensionUris", by simp, hi⟩
    · exact ⟨"extension_uris", by simp, hi⟩
    · exact ⟨"extensions", by simp, hi⟩
    · exact ⟨"relations", by simp, hi⟩

theorem proto_iff (s : Str) : AtLine ProtoLine s ↔ onLine protoWords true s = true := by
  rw [onLine_iff (by decide)]
  unfold AtLine ProtoLine protoWords
  refine exists_congr fun a => exists_congr fun b => and_congr_right fun _ => and_congr ?_ ?_
  · simp
  constructor
  · rintro ⟨w, h, hi⟩
    refine ⟨_, ?_, hi⟩
    clear hi
    revert w
    decide
  · rintro ⟨w, h, hi⟩
    simp only [List.mem_cons, List.not_mem_nil, or_false] at h
    rcases h with rfl | rfl | rfl | rfl
    · exact ⟨"relations", by simp, hi⟩
    · exact ⟨"extensions", by simp, hi⟩
    · exact ⟨"extension_uris", by simp, hi⟩
    · exact ⟨"expected_type_urls", by simp, hi⟩

/-- The plan is printed, and this is what the text is like. -/
def looks (o : Outcome Str) (json proto : Bool) : Bool :=
  match o with
  | .ok t => anywhere jsonWords t == json && onLine protoWords true t == proto
  | _ => false

theorem looks_some {o : Outcome Str} {json proto : Bool} (h : looks o json proto = true) :
    ∃ t, o = .ok t ∧ (HasJsonWord t ↔ json = true) ∧ (AtLine ProtoLine t ↔ proto = true) := by
  cases o with
  | ok t =>
    simp only [looks, Bool.and_eq_true, beq_iff_eq] at h
    exact ⟨t, rfl, by rw [json_iff, h.1], by rw [proto_iff, h.2]⟩
  | throw e => cases h
  | ub => cases h

theorem names_ok : ∀ name ∈ ["people".toList, "relations".toList, "a\nrelations {".toList],
    Sec.Quotable name ∧ NamesFit (reading name) := by
  intro name h
  refine ⟨?_, reading_names _ ?_⟩
  · simp only [List.mem_cons, List.not_mem_nil, or_false] at h
    rcases h with rfl | rfl | rfl <;> exact Sec.quotable_of (by decide) (by decide)
  · rw [sample_funs]
    revert name
    decide +kernel

/-- Non-vacuity: the text of an ordinary plan is not mistaken, and the plan comes back. -/
example (d : Decoders Binary) (enc : Encoders Binary) (other : Binary → TextResult)
    (file : Option Str) :
    ∃ text b, savePlan (withSaver Expr.sampleLib id 8 enc other) ⟨true, none, true⟩
        (reading "people".toList).binary .text file = (.ok, some text) ∧
      loadPlan (withLoader Expr.sampleLib 8 d) (some text) = .ok b ∧
      SamePlan (reading "people".toList) b := by
  obtain ⟨hq, hn⟩ := names_ok "people".toList (by simp)
  obtain ⟨text, h1, h2⟩ := text_file_partial Expr.sampleLib Expr.sampleLib_numerals id
    (fun l => .refl l) d enc other _ (reading_expressible _ hq hn) 8 (by decide) file
  obtain ⟨t, h3, h4, h5⟩ := looks_some (json := false) (proto := false)
    (o := toText Expr.sampleLib id 8 (reading "people".toList)) (by decide +kernel)
  have : t = text := by
    have := save_succeeds (withSaver Expr.sampleLib id 8 enc other) ⟨true, none, true⟩
      (reading "people".toList).binary .text file t ⟨rfl, by simp, rfl⟩ (by simp only [Encoders.output, withSaver, textResult_text h3])
      fun _ => textResult_text (other := other) h3
    rw [h1 _ ⟨rfl, by simp, rfl⟩] at this
    injection this with _ h
    injection h with h
    exact h.symm
  subst this
  obtain ⟨b, h6, h7⟩ := h2 ⟨by simp [h4], by simp [h5]⟩
  exact ⟨t, b, h1 _ ⟨rfl, by simp, rfl⟩, h6, h7⟩

/-- **C68 is false without the condition on quoted words**: a plan that text can express and that
reads a table with the name `relations` is saved as text, but the file is taken for JSON when it is
loaded. -/
theorem text_file_as_json (d : Decoders Binary) :
    Expressible Expr.sampleLib (reading "relations".toList) ∧
    ∃ text, toText Expr.sampleLib id 8 (reading "relations".toList) = .ok text ∧
      loadPlan (withLoader Expr.sampleLib 8 d) (some text) = loadFromJson d.json text := by
  obtain ⟨hq, hn⟩ := names_ok "relations".toList (by simp)
  refine ⟨reading_expressible _ hq hn, ?_⟩
  obtain ⟨t, h1, h2, -⟩ := looks_some (json := true) (proto := false)
    (o := toText Expr.sampleLib id 8 (reading "relations".toList)) (by decide +kernel)
  refine ⟨t, h1, ?_⟩
  rw [loadPlan, (detect_iff t).1.2 (h2.2 rfl)]
  rfl

/-- **C68 is false without the condition on lines**: the name of the table has a line break and goes
on with the start of a message. -/
theorem text_file_as_protoText (d : Decoders Binary) :
    Expressible Expr.sampleLib (reading "a\nrelations {".toList) ∧
    ∃ text, toText Expr.sampleLib id 8 (reading "a\nrelations {".toList) = .ok text ∧
      loadPlan (withLoader Expr.sampleLib 8 d) (some text) = d.protoText text := by
  obtain ⟨hq, hn⟩ := names_ok "a\nrelations {".toList (by simp)
  refine ⟨reading_expressible _ hq hn, ?_⟩
  obtain ⟨t, h1, h2, h3⟩ := looks_some (json := false) (proto := true)
    (o := toText Expr.sampleLib id 8 (reading "a\nrelations {".toList)) (by decide +kernel)
  refine ⟨t, h1, ?_⟩
  rw [loadPlan, (detect_iff t).2.1.2 ⟨by simp [h2], h3.2 rfl⟩]
  rfl

end Verif.Tools
