import Verif.Model.Io
import Verif.Spec.Io
import Verif.Lemmas.Regex
import Verif.Lemmas.Strings

/-! # Properties of plan files (C21 - C23) -/

namespace Verif.Io

open Verif Regex

/-! ## C21: detection -/

theorem search_json_iff (s : Str) : search kIsJson s = true ↔ HasJsonWord s := by
  rw [search_iff]
  unfold kIsJson HasJsonWord
  simp only [alts, lang_alt, lang_lit]
  constructor
  · rintro ⟨p, hp, h⟩
    rcases h with rfl | rfl | rfl | rfl
    · exact ⟨"extensionUris", by simp, hp⟩
    · exact ⟨"extension_uris", by simp, hp⟩
    · exact ⟨"extensions", by simp, hp⟩
    · exact ⟨"relations", by simp, hp⟩
  · rintro ⟨w, hw, hp⟩
    simp only [List.mem_cons, List.not_mem_nil, or_false] at hw
    rcases hw with rfl | rfl | rfl | rfl
    · exact ⟨_, hp, Or.inl rfl⟩
    · exact ⟨_, hp, Or.inr (Or.inl rfl)⟩
    · exact ⟨_, hp, Or.inr (Or.inr (Or.inl rfl))⟩
    · exact ⟨_, hp, Or.inr (Or.inr (Or.inr rfl))⟩

theorem search_proto_iff (s : Str) : searchLine kIsProtoText s = true ↔ AtLine ProtoLine s := by
  rw [searchLine_iff]
  unfold AtLine
  refine exists_congr fun a => exists_congr fun b => and_congr_right fun _ => and_congr_right fun _ => ?_
  unfold kIsProtoText ProtoLine
  simp only [alts, lang_seq, lang_alt, lang_lit]
  constructor
  · rintro ⟨p, hp, u, v, rfl, h, rfl⟩
    rcases h with rfl | rfl | rfl | rfl
    · exact ⟨"relations", by simp, hp⟩
    · exact ⟨"extensions", by simp, hp⟩
    · exact ⟨"extension_uris", by simp, hp⟩
    · exact ⟨"expected_type_urls", by simp, hp⟩
  · rintro ⟨w, hw, hp⟩
    refine ⟨_, hp, _, _, rfl, ?_, rfl⟩
    simp only [List.mem_cons, List.not_mem_nil, or_false] at hw
    rcases hw with rfl | rfl | rfl | rfl
    · exact Or.inl rfl
    · exact Or.inr (Or.inl rfl)
    · exact Or.inr (Or.inr (Or.inl rfl))
    · exact Or.inr (Or.inr (Or.inr rfl))

theorem lang_spaces (s : Str) : Lang spaces s ↔ ∃ n, s = List.replicate n ' ' := by
  unfold spaces
  rw [lang_star_chr]
  constructor
  · intro h
    exact ⟨s.length, List.eq_replicate_iff.mpr ⟨rfl, fun c hc => by simpa using h c hc⟩⟩
  · rintro ⟨n, rfl⟩ c hc
    simp [(List.mem_replicate.mp hc).2]

theorem lower_iff (c : Char) : lower c = true ↔ 'a' ≤ c ∧ c ≤ 'z' := by
  simp only [lower, Bool.and_eq_true, decide_eq_true_iff, Char.le_def, UInt32.le_iff_toNat_le]
  rfl

theorem search_text_iff (s : Str) : searchLine kIsText s = true ↔ AtLine TextLine s := by
  rw [searchLine_iff]
  unfold AtLine
  refine exists_congr fun a => exists_congr fun b => and_congr_right fun _ => and_congr_right fun _ => ?_
  unfold kIsText TextLine
  simp only [alts, lang_seq, lang_alt, lang_lit, lang_spaces, lang_plus_chr, lower_iff]
  constructor
  · rintro ⟨p, ⟨q, hp⟩, u, v, rfl, ⟨n, rfl⟩, x, y, rfl, h, ⟨m, rfl⟩⟩
    refine ⟨n, x ++ (List.replicate m ' ' ++ q), by rw [← hp]; simp, ?_⟩
    rcases h with rfl | ⟨w, z, rfl, ⟨hne, hl⟩, y1, y2, rfl, ⟨k, rfl⟩, rfl⟩ | rfl | rfl | rfl
    · exact Or.inl ⟨"pipelines", by simp, ⟨_, rfl⟩⟩
    · exact Or.inr ⟨w, k, hne, hl, ⟨List.replicate m ' ' ++ q, by simp⟩⟩
    · exact Or.inl ⟨"schema", by simp, ⟨_, rfl⟩⟩
    · exact Or.inl ⟨"source", by simp, ⟨_, rfl⟩⟩
    · exact Or.inl ⟨"extension_space", by simp, ⟨_, rfl⟩⟩
  · rintro ⟨n, rest, rfl, h⟩
    rcases h with ⟨w, hw, q, rfl⟩ | ⟨w, k, hne, hl, q, rfl⟩
    · refine ⟨List.replicate n ' ' ++ (w.toList ++ []), ⟨q, by simp⟩, _, _, rfl, ⟨n, rfl⟩, _, _, rfl,
        ?_, ⟨0, rfl⟩⟩
      simp only [List.mem_cons, List.not_mem_nil, or_false] at hw
      rcases hw with rfl | rfl | rfl | rfl
      · exact Or.inl rfl
      · exact Or.inr (Or.inr (Or.inl rfl))
      · exact Or.inr (Or.inr (Or.inr (Or.inl rfl)))
      · exact Or.inr (Or.inr (Or.inr (Or.inr rfl)))
    · refine ⟨List.replicate n ' ' ++ ((w ++ (List.replicate k ' ' ++ "relation".toList)) ++ []),
        ⟨q, by simp⟩, _, _, rfl, ⟨n, rfl⟩, _, _, rfl, ?_, ⟨0, rfl⟩⟩
      exact Or.inr (Or.inl ⟨w, _, rfl, ⟨hne, hl⟩, _, _, rfl, ⟨k, rfl⟩, rfl⟩)

/-- **C21, detection.**  Which format every content is taken for, in terms of the words it
contains.  The four cases exclude each other and cover everything. -/
theorem detect_iff (s : Str) :
    (detectFormat s = .json ↔ HasJsonWord s) ∧
    (detectFormat s = .protoText ↔ ¬ HasJsonWord s ∧ AtLine ProtoLine s) ∧
    (detectFormat s = .text ↔ ¬ HasJsonWord s ∧ ¬ AtLine ProtoLine s ∧ AtLine TextLine s) ∧
    (detectFormat s = .binary ↔ ¬ HasJsonWord s ∧ ¬ AtLine ProtoLine s ∧ ¬ AtLine TextLine s) := by
  rw [← search_json_iff, ← search_proto_iff, ← search_text_iff]
  unfold detectFormat
  by_cases h1 : search kIsJson s = true <;> by_cases h2 : searchLine kIsProtoText s = true <;>
    by_cases h3 : searchLine kIsText s = true <;> simp [h1, h2, h3]

/-- **C21, dispatch.**  Loading a file runs the decoder of the detected format on the whole
content, and no other decoder has an influence. -/
theorem loadPlan_dispatch {Plan : Type} (d d' : Decoders Plan) (s : Str) :
    (detectFormat s = .binary → d.binary = d'.binary → loadPlan d (some s) = loadPlan d' (some s)) ∧
    (detectFormat s = .json → d.json = d'.json → loadPlan d (some s) = loadPlan d' (some s)) ∧
    (detectFormat s = .protoText → d.protoText = d'.protoText →
      loadPlan d (some s) = loadPlan d' (some s)) ∧
    (detectFormat s = .text → d.text = d'.text → loadPlan d (some s) = loadPlan d' (some s)) ∧
    (∃ m, loadPlan d none = .error m) := by
  refine ⟨?_, ?_, ?_, ?_, ⟨_, rfl⟩⟩ <;> intro h e <;> simp only [loadPlan, h, e]

theorem loadPlan_binary {Plan : Type} (d : Decoders Plan) (s : Str) (h : detectFormat s = .binary) :
    loadPlan d (some s) = d.binary s := by simp only [loadPlan, h]

theorem loadPlan_text {Plan : Type} (d : Decoders Plan) (s : Str) (h : detectFormat s = .text) :
    loadPlan d (some s) = d.text s := by simp only [loadPlan, h]

theorem loadPlan_protoText {Plan : Type} (d : Decoders Plan) (s : Str)
    (h : detectFormat s = .protoText) : loadPlan d (some s) = d.protoText s := by
  simp only [loadPlan, h]

/-- **C21, JSON files may start with one comment line**: a first line starting with `#` is
skipped and the rest, from its newline on, is decoded. -/
theorem loadPlan_json {Plan : Type} (d : Decoders Plan) (s : Str) (h : detectFormat s = .json) :
    (s.head? ≠ some '#' → loadPlan d (some s) = d.json s) ∧
    (∀ line rest, s = '#' :: line ++ '\n' :: rest → '\n' ∉ line →
      loadPlan d (some s) = d.json ('\n' :: rest)) := by
  have hne : s ≠ [] := by
    rintro rfl
    exact absurd h (by decide)
  constructor
  · intro hh
    simp only [loadPlan, h]
    cases s with
    | nil => exact absurd rfl hne
    | cons c cs =>
      have : c ≠ '#' := by simpa using hh
      unfold loadFromJson
      split
      · rename_i e; cases e
      · rename_i e; injection e with e; exact absurd e this
      · rfl
  · rintro line rest rfl hl
    simp only [loadPlan, h]
    show d.json (List.dropWhile (· != '\n') ('#' :: line ++ '\n' :: rest)) = _
    congr 1
    have : ∀ l : Str, '\n' ∉ l → List.dropWhile (· != '\n') (l ++ '\n' :: rest) = '\n' :: rest := by
      intro l hl
      induction l with
      | nil => simp
      | cons c cs ih =>
        have hc : c ≠ '\n' := fun e => hl (by simp [e])
        simp only [List.cons_append, List.dropWhile_cons, bne_iff_ne, ne_eq, hc, not_false_eq_true,
          if_true]
        exact ih fun hm => hl (by simp [hm])
    exact this ('#' :: line) (by simp [hl])

/-- Non-vacuity: one content for every format. -/
example : detectFormat "{\"relations\":[]}".toList = .json ∧
    detectFormat "version {\n}\nrelations {\n}\n".toList = .protoText ∧
    detectFormat "\n  read  relation r {".toList = .text ∧
    detectFormat "\x1a\x02\x12\x00".toList = .binary := by decide +kernel

/-- **C21, format names** are recognised regardless of case. -/
theorem formatName_case (s t : Str) (h : s.map toLower = t.map toLower) :
    planFileFormatFromText s = planFileFormatFromText t := by
  unfold planFileFormatFromText; rw [h]

/-- **C21, format names**: the four names mean the four formats; anything else is text. -/
theorem formatName_iff (s : Str) :
    (planFileFormatFromText s = .binary ↔ s.map toLower = "binary".toList) ∧
    (planFileFormatFromText s = .json ↔ s.map toLower = "json".toList) ∧
    (planFileFormatFromText s = .protoText ↔ s.map toLower = "prototext".toList) ∧
    (planFileFormatFromText s = .text ↔ s.map toLower ∉
      ["binary".toList, "json".toList, "prototext".toList]) := by
  unfold planFileFormatFromText
  dsimp only
  generalize s.map toLower = t
  have e1 : "binary".toList ≠ "json".toList := by decide
  have e2 : "binary".toList ≠ "prototext".toList := by decide
  have e3 : "json".toList ≠ "prototext".toList := by decide
  generalize "binary".toList = b at *
  generalize "json".toList = j at *
  generalize "prototext".toList = p at *
  by_cases h1 : t = b
  · subst h1; simp [e1, e2]
  by_cases h2 : t = j
  · subst h2; simp [e3, h1]
  by_cases h3 : t = p
  · subst h3; simp [h1, h2]
  · simp [h1, h2, h3]

example : planFileFormatFromText "ProtoText".toList = .protoText := by decide

/-! ## C21: saved files -/

theorem infix_flatten {α} {l : List α} {ls : List (List α)} (h : l ∈ ls) : l <:+: ls.flatten := by
  obtain ⟨a, b, rfl⟩ := List.append_of_mem h
  exact ⟨a.flatten, b.flatten, by simp⟩

/-- **C21, saved JSON** (`_partial`: not for a plan without these three fields, see
`saved_json_undetected`): a JSON object with one of the three plan fields is detected. -/
theorem saved_json_partial (fields : List (Str × Str))
    (h : ∃ f ∈ fields, f.1 ∈ ["extensionUris".toList, "extensions".toList, "relations".toList]) :
    detectFormat (jsonObject fields) = .json := by
  rw [(detect_iff _).1]
  obtain ⟨⟨k, v⟩, hf, hk⟩ := h
  have hin : ('"' :: k ++ ['"']) <:+: jsonObject fields := by
    have h1 : ('"' :: k ++ "\":".toList ++ v) <:+:
        List.intercalate [','] (fields.map fun f => '"' :: f.1 ++ "\":".toList ++ f.2) := by
      have hm : ('"' :: k ++ "\":".toList ++ v) ∈
          fields.map fun f => '"' :: f.1 ++ "\":".toList ++ f.2 := by
        rw [List.mem_map]; exact ⟨(k, v), hf, rfl⟩
      rw [List.intercalate]
      apply infix_flatten
      generalize fields.map (fun f => '"' :: f.1 ++ "\":".toList ++ f.2) = ls at hm
      clear hf hk
      induction ls with
      | nil => simp at hm
      | cons x xs ih =>
        cases xs with
        | nil => simpa using hm
        | cons y ys =>
          simp only [List.intersperse_cons_cons, List.mem_cons]
          rcases List.mem_cons.mp hm with e | e
          · exact Or.inl e
          · exact Or.inr (Or.inr (ih e))
    have h2 : ('"' :: k ++ ['"']) <:+: ('"' :: k ++ "\":".toList ++ v) :=
      ⟨[], ':' :: v, by simp⟩
    refine h2.trans (h1.trans ⟨['{'], ['}'], ?_⟩)
    simp [jsonObject]
  simp only [List.mem_cons, List.not_mem_nil, or_false] at hk
  rcases hk with rfl | rfl | rfl
  · exact ⟨"extensionUris", by simp, hin⟩
  · exact ⟨"extensions", by simp, hin⟩
  · exact ⟨"relations", by simp, hin⟩

/-- **C21 is false for JSON**: the file of an empty plan, or of one with only a version, is
taken for binary. -/
theorem saved_json_undetected :
    detectFormat (jsonObject []) = .binary ∧
    detectFormat (jsonObject [("version".toList, "{\"minorNumber\":42}".toList)]) = .binary := by
  decide +kernel

theorem protoText_cons (e : Entry) (es : List Entry) :
    protoText (e :: es) = e.text ++ protoText es := rfl

theorem protoText_endsLine (es : List Entry) :
    protoText es = [] ∨ (protoText es).getLast? = some '\n' := by
  induction es with
  | nil => exact Or.inl rfl
  | cons e es ih =>
    right
    rw [protoText_cons, List.getLast?_append]
    rcases ih with h | h
    · rw [h]; cases e <;> simp [Entry.text, List.getLast?_cons]
    · rw [h]; simp

/-- **C21, saved protobuf text** (`_partial`: the text must not hold one of the quoted JSON
words, see `saved_protoText_as_json`): a plan with an extension or a relation is
detected. -/
theorem saved_protoText_partial (entries : List Entry)
    (h : ∃ name body, Entry.message name body ∈ entries ∧
      name ∈ ["extension_uris".toList, "extensions".toList, "relations".toList])
    (hj : ¬ HasJsonWord (protoText entries)) :
    detectFormat (protoText entries) = .protoText := by
  rw [(detect_iff _).2.1]
  refine ⟨hj, ?_⟩
  obtain ⟨name, body, hm, hn⟩ := h
  obtain ⟨es, fs, rfl⟩ := List.append_of_mem hm
  refine ⟨protoText es, (Entry.message name body).text ++ protoText fs, ?_, protoText_endsLine es, ?_⟩
  · simp [protoText]
  · have hp : (name ++ " {".toList) <+: (Entry.message name body).text ++ protoText fs :=
      ⟨'\n' :: body ++ "}\n".toList ++ protoText fs, by simp [Entry.text]⟩
    simp only [List.mem_cons, List.not_mem_nil, or_false] at hn
    rcases hn with rfl | rfl | rfl
    · exact ⟨"extension_uris", by simp, hp⟩
    · exact ⟨"extensions", by simp, hp⟩
    · exact ⟨"relations", by simp, hp⟩

/-- **C21 is false for protobuf text**: every file with a string equal to one of the words,
such as a column named `relations`, is taken for JSON. -/
theorem saved_as_json (a b : Str) (w : String)
    (hw : w ∈ ["extensionUris", "extension_uris", "extensions", "relations"]) :
    detectFormat (a ++ ('"' :: w.toList ++ ['"']) ++ b) = .json := by
  rw [(detect_iff _).1]
  exact ⟨w, hw, a, b, rfl⟩

theorem saved_protoText_as_json :
    detectFormat (protoText [.message "relations".toList
      "  root {\n    names: \"extensions\"\n  }\n".toList]) = .json := by
  decide +kernel

/-- The same for a text plan: a string literal or table name equal to one of the words. -/
theorem saved_text_as_json :
    detectFormat "source named_table s {\n  names = [\n    \"relations\",\n  ]\n}\n".toList = .json := by
  decide +kernel

/-- A text plan written in capitals (the grammar ignores case) is taken for binary. -/
theorem capitals_undetected : detectFormat "PIPELINES {\n  A -> B;\n}\n".toList = .binary := by
  decide +kernel

/-- **C21 is false for binary**: a file that holds a field with number 1 of 32 characters
(tag byte newline, length byte space), starting with a section word, is not taken for
binary. -/
theorem saved_binary_misdetected (a b tail : Str) (w : String)
    (hw : w ∈ ["pipelines", "schema", "source", "extension_space"])
    (hlen : (w.toList ++ tail).length = 32) :
    detectFormat (a ++ lenField 1 (w.toList ++ tail) ++ b) ≠ .binary := by
  intro h
  rw [(detect_iff _).2.2.2] at h
  apply h.2.2
  refine ⟨a ++ ['\n'], ' ' :: w.toList ++ tail ++ b, ?_, Or.inr (by simp), 1, w.toList ++ tail ++ b, ?_, ?_⟩
  · simp only [lenField, hlen, List.append_assoc, List.cons_append, List.nil_append]
  · simp
  · exact Or.inl ⟨w, hw, ⟨tail ++ b, by simp⟩⟩

/-- A complete plan of this kind: a root over a read relation whose schema has one column. -/
theorem saved_binary_as_text :
    detectFormat (lenField 3 (lenField 2 (lenField 1 (lenField 1 (lenField 2
      (lenField 1 "source_system_identifier_column1".toList)))))) = .text := by
  decide +kernel

/-- Non-vacuity of the saved-file theorems: an ordinary plan. -/
example : detectFormat (protoText [.scalar "expected_type_urls".toList "\"x\"".toList,
    .message "relations".toList "  rel {\n  }\n".toList]) = .protoText ∧
    ¬ HasJsonWord (protoText [.message "relations".toList "  rel {\n  }\n".toList]) := by
  refine ⟨by decide +kernel, ?_⟩
  rw [← search_json_iff]
  decide +kernel

/-! ## C22 -/

/-- What the encoder produces, if it produces something. -/
def Encoders.output {Plan : Type} (enc : Encoders Plan) (p : Plan) : Format → Option Str
  | .binary => some (enc.binary p)
  | .json => enc.json p
  | .protoText => some (enc.protoText p)
  | .text => match enc.text p with
    | .printed out _ => some out
    | _ => none

/-- **C22, success.**  If the save succeeds the file holds exactly the encoding. -/
theorem save_ok {Plan : Type} (enc : Encoders Plan) (e : Env) (p : Plan) (f : Format)
    (file : Option Str) (h : (savePlan enc e p f file).1 = .ok) :
    ∃ out, enc.output p f = some out ∧ (savePlan enc e p f file).2 = some out := by
  have stream : ∀ out, (saveStream e out file).1 = .ok → (saveStream e out file).2 = some out := by
    intro out h
    unfold saveStream at h ⊢
    split at h
    · cases h
    split at h
    · cases h
    split at h
    · cases h
    rename_i h1 h2 h3
    rw [if_neg h1, if_neg h2, if_neg h3]
  cases f with
  | binary => exact ⟨_, rfl, stream _ h⟩
  | protoText => exact ⟨_, rfl, stream _ h⟩
  | json =>
    simp only [savePlan, saveJson, Encoders.output] at h ⊢
    cases ho : enc.json p with
    | none => rw [ho] at h; split at h <;> cases h
    | some out =>
      rw [ho] at h
      refine ⟨out, rfl, ?_⟩
      split at h
      · cases h
      dsimp only at h
      split at h
      · cases h
      rename_i h1 h2
      rw [if_neg h1]
      dsimp only
      rw [if_neg h2]
  | text =>
    simp only [savePlan, saveText, Encoders.output] at h ⊢
    cases ho : enc.text p with
    | throws => rw [ho] at h; split at h <;> cases h
    | parseErrors => rw [ho] at h; split at h <;> cases h
    | printed out n =>
      rw [ho] at h
      refine ⟨out, rfl, ?_⟩
      split at h
      · cases h
      dsimp only at h
      split at h
      · cases h
      split at h
      · cases h
      rename_i h1 h2 h3
      rw [if_neg h1]
      dsimp only
      rw [if_neg h2, if_neg h3]

/-- There is room for the bytes, and the file can be opened and closed. -/
structure Env.Works (e : Env) (out : Str) : Prop where
  opens : e.openOk = true
  room : ∀ n, e.capacity = some n → out.length ≤ n
  closes : e.closeOk = true

theorem fits_iff (e : Env) (out : Str) :
    e.fits out = true ↔ ∀ n, e.capacity = some n → out.length ≤ n := by
  unfold Env.fits
  cases e.capacity <;> simp

/-- **C22, success happens** whenever nothing fails, also if the device is full after the last
byte. -/
theorem save_succeeds {Plan : Type} (enc : Encoders Plan) (e : Env) (p : Plan) (f : Format)
    (file : Option Str) (out : Str) (he : e.Works out) (h : enc.output p f = some out)
    (ht : f = .text → enc.text p = .printed out 0) :
    savePlan enc e p f file = (.ok, some out) := by
  have h1 := he.opens
  have h2 := (fits_iff e out).2 he.room
  have h3 := he.closes
  cases f with
  | binary =>
    simp only [Encoders.output, Option.some.injEq] at h
    simp [savePlan, saveStream, h, h1, h2, h3]
  | protoText =>
    simp only [Encoders.output, Option.some.injEq] at h
    simp [savePlan, saveStream, h, h1, h2, h3]
  | json => simp only [Encoders.output] at h; simp [savePlan, saveJson, h, h1, h2, h3]
  | text => simp [savePlan, saveText, ht rfl, h1, h2, h3]

/-- **C22, success only happens** if nothing fails. -/
theorem save_ok_works {Plan : Type} (enc : Encoders Plan) (e : Env) (p : Plan) (f : Format)
    (file : Option Str) (h : (savePlan enc e p f file).1 = .ok) :
    ∃ out, enc.output p f = some out ∧ e.Works out := by
  have stream : ∀ out, (saveStream e out file).1 = .ok → e.Works out := by
    intro out h
    unfold saveStream at h
    split at h
    · cases h
    split at h
    · cases h
    split at h
    · cases h
    rename_i h1 h2 h3
    exact ⟨by simpa using h1, (fits_iff e out).1 (by simpa using h2), by simpa using h3⟩
  cases f with
  | binary => exact ⟨_, rfl, stream _ h⟩
  | protoText => exact ⟨_, rfl, stream _ h⟩
  | json =>
    simp only [savePlan, saveJson, Encoders.output] at h ⊢
    cases ho : enc.json p with
    | none => rw [ho] at h; split at h <;> cases h
    | some out =>
      rw [ho] at h
      refine ⟨out, rfl, ?_⟩
      split at h
      · cases h
      dsimp only at h
      split at h
      · cases h
      rename_i h1 h2
      simp only [Bool.or_eq_true, not_or, Bool.not_eq_true'] at h2
      exact ⟨by simpa using h1, (fits_iff e out).1 (by simpa using h2.1), by simpa using h2.2⟩
  | text =>
    simp only [savePlan, saveText, Encoders.output] at h ⊢
    cases ho : enc.text p with
    | throws => rw [ho] at h; split at h <;> cases h
    | parseErrors => rw [ho] at h; split at h <;> cases h
    | printed out n =>
      rw [ho] at h
      refine ⟨out, rfl, ?_⟩
      split at h
      · cases h
      dsimp only at h
      split at h
      · cases h
      rename_i h1 h2
      simp only [Bool.or_eq_true, not_or, Bool.not_eq_true'] at h2
      exact ⟨by simpa using h1, (fits_iff e out).1 (by simpa using h2.1), by simpa using h2.2⟩

/-- Non-vacuity: a device with room for exactly these bytes. -/
example : (Env.mk true (some 3) true).Works "abc".toList := ⟨rfl, by simp, rfl⟩

/-- **C22, the part that holds** (`_partial`: only when the file cannot be opened): the
previous file is kept. -/
theorem save_error_keeps_partial {Plan : Type} (enc : Encoders Plan) (e : Env) (p : Plan)
    (f : Format) (file : Option Str) (h : e.openOk = false) :
    savePlan enc e p f file = (.error, file) := by
  cases f <;> simp [savePlan, saveStream, saveJson, saveText, h]

/-- **C22, exact damage.**  Every other failure leaves a prefix of the new output (often
nothing) in place of the previous file. -/
theorem save_error_leaves {Plan : Type} (enc : Encoders Plan) (e : Env) (p : Plan)
    (f : Format) (file : Option Str) (ho : e.openOk = true)
    (h : (savePlan enc e p f file).1 ≠ .ok) :
    ∃ left, (savePlan enc e p f file).2 = some left ∧
      (left = [] ∨ ∃ out, enc.output p f = some out ∧ left <+: out) := by
  have hw : ∀ out, e.written out <+: out := by
    intro out
    unfold Env.written
    split
    · exact List.prefix_rfl
    · exact List.take_prefix _ _
  have stream : ∀ out, ∃ left, (saveStream e out file).2 = some left ∧ left <+: out := by
    intro out
    unfold saveStream
    rw [ho]
    simp only [Bool.not_true, Bool.false_eq_true, if_false]
    split
    · exact ⟨_, rfl, hw out⟩
    split <;> exact ⟨_, rfl, List.prefix_rfl⟩
  cases f with
  | binary =>
    obtain ⟨l, h1, h2⟩ := stream (enc.binary p)
    exact ⟨l, h1, Or.inr ⟨_, rfl, h2⟩⟩
  | protoText =>
    obtain ⟨l, h1, h2⟩ := stream (enc.protoText p)
    exact ⟨l, h1, Or.inr ⟨_, rfl, h2⟩⟩
  | json =>
    simp only [savePlan, saveJson, ho, Bool.not_true, Bool.false_eq_true, if_false, Encoders.output]
    cases hj : enc.json p with
    | none => exact ⟨[], rfl, Or.inl rfl⟩
    | some out =>
      dsimp only
      split
      · exact ⟨_, rfl, Or.inr ⟨_, rfl, hw out⟩⟩
      · exact ⟨_, rfl, Or.inr ⟨_, rfl, List.prefix_rfl⟩⟩
  | text =>
    simp only [savePlan, saveText, ho, Bool.not_true, Bool.false_eq_true, if_false, Encoders.output]
    cases hj : enc.text p with
    | throws => exact ⟨[], rfl, Or.inl rfl⟩
    | parseErrors => exact ⟨[], rfl, Or.inl rfl⟩
    | printed out n =>
      dsimp only
      split
      · exact ⟨_, rfl, Or.inr ⟨_, rfl, hw out⟩⟩
      split <;> exact ⟨_, rfl, Or.inr ⟨_, rfl, List.prefix_rfl⟩⟩

/-- **C22 is false**: a plan the text printer cannot express (for example one with a
`reference` relation) empties the previous file, whatever it held. -/
theorem save_error_destroys {Plan : Type} (enc : Encoders Plan) (e : Env) (p : Plan)
    (old : Str) (hold : old ≠ []) (ho : e.openOk = true)
    (h : enc.text p = .parseErrors ∨ enc.text p = .throws) :
    (savePlan enc e p .text (some old)).1 ≠ .ok ∧
    (savePlan enc e p .text (some old)).2 = some [] ∧
    (savePlan enc e p .text (some old)).2 ≠ some old := by
  rcases h with h | h <;> simp [savePlan, saveText, ho, h] <;> exact hold

/-- Non-vacuity of C22. -/
example : savePlan (Plan := Unit) ⟨fun _ => "b".toList, fun _ => some "{}".toList,
      fun _ => "t".toList, fun _ => .parseErrors⟩ ⟨true, none, true⟩ () .text
      (some "precious".toList) = (.error, some []) ∧
    savePlan (Plan := Unit) ⟨fun _ => "bytes".toList, fun _ => none, fun _ => [],
      fun _ => .throws⟩ ⟨true, some 2, true⟩ () .binary (some "old".toList) =
      (.error, some "by".toList) := by decide

/-! ## C23 -/

/-- **C23, loading.**  Exactly one of buffer and error is set; the buffer holds the
serialized plan and a terminator; the size is the length modulo 2^31. -/
theorem load_exactly_one {Plan : Type} (loaded : Status Plan) (ser : Plan → Str) :
    ((loadSubstraitPlan loaded ser).buffer.isSome ↔
      (loadSubstraitPlan loaded ser).errorMessage = none) ∧
    (∀ p, loaded = .ok p →
      (loadSubstraitPlan loaded ser).buffer = some (ser p ++ ['\x00']) ∧
      (loadSubstraitPlan loaded ser).size = ((ser p).length % 2 ^ 31 : Nat)) ∧
    (∀ m, loaded = .error m → (loadSubstraitPlan loaded ser).size = 0 ∧ ('\x00' ∉ m →
      (loadSubstraitPlan loaded ser).errorMessage = some m)) := by
  refine ⟨?_, ?_, ?_⟩
  · cases loaded <;> simp [loadSubstraitPlan]
  · rintro p rfl
    refine ⟨rfl, ?_⟩
    simp only [loadSubstraitPlan, Nat.and_two_pow_sub_one_eq_mod]
  · rintro m rfl
    refine ⟨rfl, fun hm => ?_⟩
    simp only [loadSubstraitPlan, Option.some.injEq]
    have : m.takeWhile (· != '\x00') = m := by
      clear ser
      induction m with
      | nil => rfl
      | cons c cs ih =>
        have hc : c ≠ '\x00' := fun e => hm (by simp [e])
        simp only [List.takeWhile_cons, bne_iff_ne, ne_eq, hc, not_false_eq_true, if_true]
        rw [ih fun h => hm (by simp [h])]
    exact this

/-- **C23, the size** (`_partial`: plans below 2 GiB): the size is the exact length. -/
theorem load_size_partial {Plan : Type} (p : Plan) (ser : Plan → Str)
    (h : (ser p).length < 2 ^ 31) :
    (loadSubstraitPlan (.ok p) ser).size = ((ser p).length : Nat) := by
  rw [((load_exactly_one (.ok p) ser).2.1 p rfl).2, Nat.mod_eq_of_lt h]

/-- **C23 is false from 2 GiB on**: the size is wrong and no error is reported. -/
theorem load_size_fails {Plan : Type} (p : Plan) (ser : Plan → Str) (h : 2 ^ 31 ≤ (ser p).length) :
    (loadSubstraitPlan (.ok p) ser).size ≠ ((ser p).length : Nat) ∧
    (loadSubstraitPlan (.ok p) ser).errorMessage = none := by
  refine ⟨?_, rfl⟩
  rw [((load_exactly_one (.ok p) ser).2.1 p rfl).2]
  have : (ser p).length % 2 ^ 31 < 2 ^ 31 := Nat.mod_lt _ (by decide)
  omega

/-- **C23, saving** (`_partial`): null is returned exactly when the save of the decoded plan
reports no error. -/
theorem save_null_iff_partial {Plan : Type} (parse : Str → Bool × Plan) (save : Plan → Option Str)
    (data : Str) :
    saveSubstraitPlan parse save data = .null ↔ save (parse data).2 = none := by
  unfold saveSubstraitPlan
  cases save (parse data).2 <;> simp

/-- **C23 is false for the error message**: the returned pointer refers to a status object
that no longer exists; reading it is undefined. -/
theorem save_message_unreadable {Plan : Type} (parse : Str → Bool × Plan)
    (save : Plan → Option Str) (data : Str) (h : save (parse data).2 ≠ none) :
    saveSubstraitPlan parse save data ≠ .null ∧
    (saveSubstraitPlan parse save data).read = .ub := by
  unfold saveSubstraitPlan
  cases hs : save (parse data).2 with
  | none => exact absurd hs h
  | some m => simp [CStr.read]

/-- **C23 is false for bytes that are no plan**: the decoding failure is not reported, and
what could be decoded is saved. -/
theorem save_ignores_decode_failure {Plan : Type} (parse : Str → Bool × Plan)
    (save : Plan → Option Str) (data : Str) (_hbad : (parse data).1 = false)
    (h : save (parse data).2 = none) : saveSubstraitPlan parse save data = .null :=
  (save_null_iff_partial parse save data).mpr h

/-- Non-vacuity of C23. -/
example : (loadSubstraitPlan (.ok ()) (fun _ => "abc".toList)).size = 3 ∧
    (loadSubstraitPlan (Plan := Unit) (.error "bad".toList) (fun _ => [])).errorMessage =
      some "bad".toList := by decide

end Verif.Io
