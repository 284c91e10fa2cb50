import Verif.Lemmas.Function

/-!
# Properties of function declaration, lookup and loading (C10 - C15)
-/

namespace Verif.Fn

open Verif Ty

/-! ## C10: lookup -/

/-- **C10, soundness.**  What lookup returns is the earliest declaration of the requested
kind and name that accepts the call; all earlier ones reject it. -/
theorem lookup_sound (h : History) (k : FnKind) (call : Call) (f : Impl)
    (hl : (build h).lookup k call = .ok (some f)) :
    ∃ pre post, declared h k call.name = pre ++ f :: post ∧ (k, f) ∈ h ∧ f.name = call.name ∧
      tryMatch f call = .ok true ∧ ∀ g ∈ pre, tryMatch g call = .ok false := by
  rw [lookup_build] at hl
  obtain ⟨pre, post, e, h1, h2⟩ := firstMatch_some.mp hl
  have hm : f ∈ declared h k call.name := by rw [e]; simp
  simp only [declared, List.mem_map, List.mem_filter, decide_eq_true_eq] at hm
  obtain ⟨⟨k', f'⟩, ⟨hin, hk, hn⟩, rfl⟩ := hm
  simp only at hk hn
  subst hk
  exact ⟨pre, post, e, hin, hn, h1, h2⟩

/-- **C10, completeness.**  Lookup returns null exactly when every declaration of that kind
and name rejects the call. -/
theorem lookup_none_iff (h : History) (k : FnKind) (call : Call) :
    (build h).lookup k call = .ok none ↔
      ∀ g, (k, g) ∈ h → g.name = call.name → tryMatch g call = .ok false := by
  rw [lookup_build, firstMatch_none]
  constructor
  · intro hall g hg hn
    apply hall
    simp only [declared, List.mem_map, List.mem_filter, decide_eq_true_eq]
    exact ⟨(k, g), ⟨hg, rfl, hn⟩, rfl⟩
  · intro hall g hg
    simp only [declared, List.mem_map, List.mem_filter, decide_eq_true_eq] at hg
    obtain ⟨⟨k', g'⟩, ⟨hin, hk, hn⟩, rfl⟩ := hg
    simp only at hk hn
    subst hk
    exact hall g' hin hn

/-- **C10, totality.**  On a registry of well-formed declarations and a call with concrete
types, lookup returns (no exception, no undefined behaviour). -/
theorem lookup_total (h : History) (k : FnKind) (name : Str) (args : List CType)
    (ret : Option CType) (hw : ∀ e ∈ h, e.2.WellFormed) :
    ∃ r, (build h).lookup k (concreteCall name args ret) = .ok r := by
  rw [lookup_build]
  have : ∀ fs : List Impl, (∀ f ∈ fs, f.WellFormed) →
      ∃ r, firstMatch fs (concreteCall name args ret) = .ok r := by
    intro fs
    induction fs with
    | nil => intro _; exact ⟨none, rfl⟩
    | cons f fs ih =>
      intro hf
      obtain ⟨b, hb⟩ := tryMatch_ok (hf f (by simp)) name args ret
      simp only [firstMatch, hb, Outcome.bind_ok]
      cases b
      · exact ih (fun g hg => hf g (by simp [hg]))
      · exact ⟨some f, rfl⟩
  apply this
  intro f hf
  simp only [declared, List.mem_map, List.mem_filter, decide_eq_true_eq] at hf
  obtain ⟨e, ⟨he, _⟩, rfl⟩ := hf
  exact hw e he

/-- **C10, all together**: on well-formed registries and concrete calls, lookup finds an
implementation iff one of that kind and name accepts the call. -/
theorem lookup_complete (h : History) (k : FnKind) (name : Str) (args : List CType)
    (ret : Option CType) (hw : ∀ e ∈ h, e.2.WellFormed) :
    (∃ f, (build h).lookup k (concreteCall name args ret) = .ok (some f)) ↔
      ∃ g, (k, g) ∈ h ∧ g.name = name ∧ tryMatch g (concreteCall name args ret) = .ok true := by
  constructor
  · rintro ⟨f, hf⟩
    obtain ⟨_, _, _, hin, hn, ht, _⟩ := lookup_sound h k _ f hf
    exact ⟨f, hin, hn, ht⟩
  · rintro ⟨g, hg, hn, ht⟩
    obtain ⟨r, hr⟩ := lookup_total h k name args ret hw
    cases r with
    | some f => exact ⟨f, hr⟩
    | none =>
      have := (lookup_none_iff h k _).mp hr g hg hn
      rw [ht] at this; simp at this

/-- The sample history used to show that the hypotheses can be met. -/
def sample : History :=
  [(.scalar, ⟨"add".toList, [], [.value (.scalar .i32 false), .value (.scalar .i32 false)],
      .scalar .i32 false, none, .scalar⟩),
   (.aggregate, ⟨"add".toList, [], [.value (.scalar .i64 true)], .scalar .i64 true, none,
      .aggregate (.scalar .i8 false)⟩),
   (.scalar, ⟨"add".toList, [], [.value (.lit "any1".toList true false)], .null,
      some ⟨1, none⟩, .scalar⟩)]

theorem sample_wellFormed : ∀ e ∈ sample, e.2.WellFormed := by
  intro e he
  simp only [sample, List.mem_cons, List.not_mem_nil, or_false] at he
  rcases he with rfl | rfl | rfl
  · refine ⟨?_, Or.inr rfl, by simp, by simp⟩
    intro t ht; simp at ht; subst ht; rfl
  · refine ⟨?_, Or.inr rfl, by simp, ?_⟩
    · intro t ht; simp at ht; subst ht; rfl
    · intro t ht; simp at ht; subst ht; exact Or.inr rfl
  · refine ⟨?_, Or.inl rfl, by simp, by simp⟩
    intro t ht; simp at ht; subst ht; rfl

/-- Non-vacuity of C10: the second scalar declaration answers, the first one rejects. -/
example : ∃ f, (build sample).lookup .scalar
      (concreteCall "add".toList [.scalar .string false, .scalar .i8 true, .scalar .date false] none)
        = .ok (some f) ∧ f.variadic = some ⟨1, none⟩ :=
  ⟨_, rfl, rfl⟩

/-! ## C11: more declarations -/

/-- **C11, answered lookups are stable.** -/
theorem lookup_stable (h h' : History) (k : FnKind) (call : Call) (f : Impl)
    (hl : (build h).lookup k call = .ok (some f)) :
    (build (h ++ h')).lookup k call = .ok (some f) := by
  rw [lookup_build] at *
  rw [declared_append, firstMatch_append, hl]
  rfl

/-- **C11, other names and kinds are unaffected.** -/
theorem lookup_unaffected (h h' : History) (k : FnKind) (call : Call)
    (hne : ∀ e ∈ h', e.1 ≠ k ∨ e.2.name ≠ call.name) :
    (build (h ++ h')).lookup k call = (build h).lookup k call := by
  rw [lookup_build, lookup_build, declared_append]
  have : declared h' k call.name = [] := by
    simp only [declared, List.map_eq_nil_iff, List.filter_eq_nil_iff, decide_eq_true_eq]
    intro e he hc
    rcases hne e he with h | h
    · exact h hc.1
    · exact h hc.2
  rw [this, List.append_nil]

/-- **C11, a failed lookup can only be answered by a new declaration.** -/
theorem lookup_new (h h' : History) (k : FnKind) (call : Call) (f : Impl)
    (h0 : (build h).lookup k call = .ok none)
    (h1 : (build (h ++ h')).lookup k call = .ok (some f)) : (k, f) ∈ h' := by
  rw [lookup_build] at *
  rw [declared_append, firstMatch_append, h0] at h1
  have := firstMatch_mem h1
  simp only [declared, List.mem_map, List.mem_filter, decide_eq_true_eq] at this
  obtain ⟨⟨k', g⟩, ⟨hin, hk, _⟩, rfl⟩ := this
  simp only at hk
  subst hk
  exact hin

/-- Non-vacuity of C11. -/
example : (∃ f, (build sample).lookup .aggregate
      (concreteCall "add".toList [.scalar .i64 true] none) = .ok (some f)) ∧
    (build sample).lookup .window (concreteCall "add".toList [] none) = .ok none :=
  ⟨⟨_, rfl⟩, rfl⟩

/-! ## C12: arity -/

/-- **C12, without variadic behaviour**: a call is accepted by the ordinary rules iff there
are as many arguments as value arguments, they match position by position, and the return
type does not disagree. -/
theorem tryMatch_fixed_iff (f : Impl) (name : Str) (args : List CType) (ret : Option CType)
    (hv : f.variadic = none) :
    tryMatchBase f (concreteCall name args ret) = .ok true ↔
      AcceptAll (valueTypes f.args) args ∧ ReturnOk f.returnType ret := by
  unfold tryMatchBase matchArgs
  rw [andThen_true]
  have hl : (concreteCall name args ret).args.length = args.length := objs_length args
  have hr : matchReturn f.returnType (concreteCall name args ret).returnType = .ok true ↔
    ReturnOk f.returnType ret := matchReturn_iff
  rw [hr, acceptAll_iff]
  simp only [hv]
  by_cases h : (valueTypes f.args).length = args.length
  · rw [if_neg (by rw [hl]; simp [h])]
    simp [h, concreteCall]
  · rw [if_pos (by rw [hl]; exact h)]
    simp [h]

/-- **C12, with variadic behaviour** (`_partial`: the bounds must be non-negative `int`s,
and the first declared argument must be a value argument, which is the one that is
compared). -/
theorem tryMatch_variadic_partial (f : Impl) (name : Str) (args : List CType)
    (ret : Option CType) (v : Variadic) (t : PType) (rest : List Arg) (hv : f.variadic = some v)
    (hargs : f.args = .value t :: rest) (hmin : 0 ≤ v.min ∧ v.min < 2147483648)
    (hmax : ∀ m, v.max = some m → 0 ≤ m ∧ m < 2147483648) :
    tryMatchBase f (concreteCall name args ret) = .ok true ↔
      (v.min ≤ args.length ∧ (∀ m, v.max = some m → (args.length : Int) ≤ m)) ∧
        (∀ a ∈ args, isMatch t a.obj = .ok true) ∧ ReturnOk f.returnType ret := by
  unfold tryMatchBase matchArgs
  rw [andThen_true]
  simp only [hv, hargs, concreteCall]
  rw [matchReturn_iff, objs_length, ← outOfBounds_iff hmin hmax]
  cases ho : outOfBounds v args.length with
  | true => simp
  | false =>
    simp only [Bool.false_eq_true, if_false, true_and]
    rw [matchAll_true, objs_eq]
    simp

/-- **C12, one fact for both forms**: a well-formed implementation with non-negative bounds
accepts exactly the calls of the specification `Accepts`. -/
theorem tryMatch_accepts_iff (f : Impl) (name : Str) (args : List CType) (ret : Option CType)
    (hw : f.WellFormed) (hb : ∀ v, f.variadic = some v →
      (0 ≤ v.min ∧ v.min < 2147483648) ∧ ∀ m, v.max = some m → 0 ≤ m ∧ m < 2147483648) :
    tryMatchBase f (concreteCall name args ret) = .ok true ↔ Accepts f args ret := by
  unfold Accepts
  cases hv : f.variadic with
  | none => rw [tryMatch_fixed_iff f name args ret hv, and_comm]
  | some v =>
    obtain ⟨hmin, hmax⟩ := hb v hv
    cases ha : f.args with
    | nil => exact absurd ha (hw.variadic (by simp [hv]))
    | cons a rest =>
      cases a with
      | value t =>
        rw [tryMatch_variadic_partial f name args ret v t rest hv ha hmin hmax]
        simp only [List.cons.injEq, Arg.value.injEq]
        constructor
        · rintro ⟨⟨h1, h2⟩, h3, h4⟩
          exact ⟨h4, h1, h2, fun t' rest' e => e.1 ▸ h3⟩
        · rintro ⟨h4, h1, h2, h3⟩
          exact ⟨⟨h1, h2⟩, h3 t rest ⟨rfl, rfl⟩, h4⟩
      | enum r =>
        unfold tryMatchBase matchArgs
        rw [andThen_true]
        simp only [hv, ha, concreteCall]
        rw [matchReturn_iff, objs_length]
        have := outOfBounds_iff (n := args.length) hmin hmax
        cases ho : outOfBounds v args.length <;> simp [ho] at this ⊢ <;> grind
      | type =>
        unfold tryMatchBase matchArgs
        rw [andThen_true]
        simp only [hv, ha, concreteCall]
        rw [matchReturn_iff, objs_length]
        have := outOfBounds_iff (n := args.length) hmin hmax
        cases ho : outOfBounds v args.length <;> simp [ho] at this ⊢ <;> grind

/-- **C12 is false for several declared arguments**: with a variadic form only the first
declared argument is consulted, so `f(i32, string...)` rejects `(i32, string)` and accepts
`(i32, i32)`. -/
theorem variadic_only_first :
    ∃ f : Impl, f.args = [.value (.scalar .i32 false), .value (.scalar .string false)] ∧
      f.WellFormed ∧
      tryMatch f (concreteCall f.name [.scalar .i32 false, .scalar .string false] none)
        = .ok false ∧
      tryMatch f (concreteCall f.name [.scalar .i32 false, .scalar .i32 false] none)
        = .ok true := by
  refine ⟨⟨[], [], [.value (.scalar .i32 false), .value (.scalar .string false)], .null,
    some ⟨1, none⟩, .scalar⟩, rfl, ⟨?_, Or.inl rfl, by simp, by simp⟩, rfl, rfl⟩
  intro t ht; simp at ht; rcases ht with rfl | rfl <;> rfl

/-- **C12 is false for an enumeration as the repeated argument**: anything is accepted. -/
theorem variadic_enum_accepts_all (args : List CType) :
    tryMatch ⟨[], [], [.enum true], .null, some ⟨0, none⟩, .scalar⟩ (concreteCall [] args none)
      = .ok true := by
  simp [tryMatch, tryMatchBase, matchArgs, outOfBounds, toSizeT, concreteCall, matchReturn, optObj,
    PType.isNull, Outcome.andThen]

/-- **C12 is false for negative bounds**: `max: -1` means "no upper bound". -/
theorem variadic_negative_max :
    tryMatch ⟨[], [], [.value (.scalar .i32 false)], .null, some ⟨0, some (-1)⟩, .scalar⟩
      (concreteCall [] [.scalar .i32 false, .scalar .i32 false] none) = .ok true := rfl

/-- **C12, undefined behaviour**: a variadic form without declared arguments. -/
theorem variadic_no_args_ub :
    tryMatch ⟨[], [], [], .null, some ⟨0, none⟩, .scalar⟩ (concreteCall [] [] none) = .ub := rfl

/-- Non-vacuity of C12: a variadic form with bounds 1..2, below, inside and above. -/
example :
    let f : Impl := ⟨[], [], [.value (.scalar .i32 true)], .null, some ⟨1, some 2⟩, .scalar⟩
    let a : CType := .scalar .i32 false
    tryMatch f (concreteCall [] [] none) = .ok false ∧
    tryMatch f (concreteCall [] [a, a] none) = .ok true ∧
    tryMatch f (concreteCall [] [a, a, a] none) = .ok false := ⟨rfl, rfl, rfl⟩

/-! ## C13: the intermediate type of aggregates -/

/-- **C13.**  A well-formed aggregate implementation accepts a call iff the ordinary rules
do, or it has an intermediate type and the call has exactly one argument, of that type. -/
theorem aggregate_iff (f : Impl) (inter : PType) (name : Str) (args : List CType)
    (ret : Option CType) (hc : f.cls = .aggregate inter) (hw : f.WellFormed) :
    tryMatch f (concreteCall name args ret) = .ok true ↔
      tryMatchBase f (concreteCall name args ret) = .ok true ∨
        (inter ≠ .null ∧ ∃ a, args = [a] ∧ isMatch inter a.obj = .ok true) := by
  obtain ⟨b, hb⟩ := tryMatchBase_ok hw name args ret
  unfold tryMatch
  simp only [hc, hb, Outcome.bind_ok]
  by_cases hi : inter = .null
  · subst hi; simp [PType.isNull]
  · have hn : inter.isNull = false := by
      cases hd : inter.isNull
      · rfl
      · exact absurd ((isNull_iff inter).mp hd) hi
    cases b with
    | true => simp
    | false =>
      simp only [hn, Bool.not_false, Bool.and_self, if_true]
      match args with
      | [] => simp [concreteCall, CType.objs]
      | [a] => simp [concreteCall, CType.objs, hi]
      | _ :: _ :: _ => simp [concreteCall, CType.objs]

/-- **C13, scalar implementations have no fallback.** -/
theorem scalar_no_fallback (f : Impl) (call : Call) (hc : f.cls = .scalar) :
    tryMatch f call = tryMatchBase f call := by
  unfold tryMatch; rw [hc]

/-- Non-vacuity of C13: accepted only through the intermediate type. -/
example :
    let f : Impl := ⟨[], [], [.value (.scalar .i64 true)], .null, none,
      .aggregate (.pStruct [.scalar .i64 false, .scalar .i64 false] false)⟩
    let a : CType := .struct [.scalar .i64 false, .scalar .i64 false] false
    tryMatchBase f (concreteCall [] [a] none) = .ok false ∧
    tryMatch f (concreteCall [] [a] none) = .ok true ∧
    tryMatch f (concreteCall [] [a, a] none) = .ok false := ⟨rfl, rfl, rfl⟩

/-! ## C14: type variants -/

theorem lookupType_addType (x : Extension) (t : TypeVariant) (name : Str) :
    (x.addType t).lookupType name =
      match x.lookupType name with
      | some v => some v
      | none => if t.name = name then some t else none := by
  unfold Extension.addType Extension.lookupType
  by_cases h : x.types.any (fun e => e.1 = t.name) = true
  · rw [if_pos h]
    cases hf : x.types.find? (fun e => e.1 = name) with
    | some e => simp
    | none =>
      have : t.name ≠ name := by
        intro e
        subst e
        rw [List.find?_eq_none] at hf
        rw [List.any_eq_true] at h
        obtain ⟨y, hy, e⟩ := h
        exact hf y hy e
      simp [this]
  · rw [if_neg h]
    simp only [List.find?_append]
    cases hf : x.types.find? (fun e => e.1 = name) with
    | some e => simp
    | none =>
      by_cases e : t.name = name <;> simp [e]

/-- **C14.**  After any sequence of registrations (interleaved with anything else that does
not register types), a type name is answered by the first variant registered under it. -/
theorem lookupType_first (ts : List TypeVariant) (name : Str) :
    (ts.foldl Extension.addType Extension.empty).lookupType name =
      ts.find? (fun t => t.name = name) := by
  have gen : ∀ x : Extension, (ts.foldl Extension.addType x).lookupType name =
      match x.lookupType name with
      | some v => some v
      | none => ts.find? (fun t => t.name = name) := by
    induction ts with
    | nil => intro x; simp; cases x.lookupType name <;> rfl
    | cons t ts ih =>
      intro x
      rw [List.foldl_cons, ih, lookupType_addType]
      cases x.lookupType name with
      | some v => rfl
      | none => by_cases h : t.name = name <;> simp [List.find?_cons, h]
  rw [gen]
  simp [Extension.empty, Extension.lookupType]

/-- **C14, functions do not matter.** -/
theorem lookupType_addImpl (x : Extension) (k : FnKind) (f : Impl) (name : Str) :
    (x.addImpl k f).lookupType name = x.lookupType name := by
  cases k <;> rfl

/-- Non-vacuity of C14: a repeated name. -/
example : ((([⟨"point".toList, "a".toList⟩, ⟨"point".toList, "b".toList⟩] : List TypeVariant).foldl
    Extension.addType Extension.empty).lookupType "point".toList) =
      some ⟨"point".toList, "a".toList⟩ := by decide

/-! ## C15: loading -/

/-- **C15, paths** (`_partial`: the base path must contain a slash; otherwise the property is
false, see `path_without_slash`).  The files opened are `dirname(basePath)/file`. -/
theorem load_paths_partial (base dir file : Str) (h : IsDirname dir base) :
    extensionPath base file = dir ++ '/' :: file := by
  obtain ⟨name, rfl, hn⟩ := h
  unfold extensionPath
  rw [findLast_append hn]
  simp

/-- **C15 is false for a base path without a slash**: the base path itself is taken as the
directory. -/
theorem path_without_slash (base file : Str) (h : '/' ∉ base) :
    extensionPath base file = base ++ '/' :: file := by
  have : findLast '/' base = none := by
    induction base with
    | nil => rfl
    | cons c cs ih =>
      simp only [List.mem_cons, not_or] at h
      simp only [findLast, ih h.2]
      rw [if_neg (fun e => h.1 e.symm)]
  unfold extensionPath
  rw [this]

/-- **C15, contents.**  Loading reads the files in the given order and yields the registry
obtained by adding the declarations of all files in order; if a file cannot be read or
decoded, loading throws what reading the first such file throws. -/
theorem load_contents (y : Yaml) (base : Str) (files : List Str) :
    load y base files =
      (Outcome.mapM (fun f => fileDecls y (extensionPath base f)) files).bind fun ds =>
        .ok (ds.flatten.foldl Decl.apply Extension.empty) := by
  unfold load loadFiles
  rw [foldOutcome_map (dec := fileDecls y) (app := fun s l => l.foldl Decl.apply s)
    (fun s a => loadFile_eq y s a)]
  have : Outcome.mapM (fileDecls y) (files.map (extensionPath base)) =
      Outcome.mapM (fun f => fileDecls y (extensionPath base f)) files := by
    induction files with
    | nil => rfl
    | cons f fs ih => simp only [List.map_cons, Outcome.mapM_cons, ih]
  rw [this]
  congr 1
  funext ds
  rw [foldl_flatten]

/-- The function declarations among the declarations of a file. -/
def fnDecls (ds : List Decl) : History :=
  ds.filterMap fun d => match d with | .fn k f => some (k, f) | .type _ => none

theorem foldl_apply_implMap (ds : List Decl) (x x' : Extension)
    (h : ∀ k, x.implMap k = x'.implMap k) (k : FnKind) :
    (ds.foldl Decl.apply x).implMap k =
      ((fnDecls ds).foldl (fun x e => x.addImpl e.1 e.2) x').implMap k := by
  induction ds generalizing x x' with
  | nil => exact h k
  | cons d ds ih =>
    cases d with
    | fn k' f =>
      simp only [List.foldl_cons, Decl.apply, fnDecls, List.filterMap_cons]
      apply ih
      intro k''
      have e := h k''
      cases k' <;> cases k'' <;> simp_all [Extension.addImpl, Extension.implMap]
    | type t =>
      simp only [List.foldl_cons, Decl.apply, fnDecls, List.filterMap_cons]
      apply ih
      intro k''
      rw [← h k'']
      unfold Extension.addType
      split <;> cases k'' <;> rfl

/-- **C15 with C10, end to end**: a lookup after loading is a lookup in the declarations of
the files, in file order. -/
theorem load_lookup (y : Yaml) (base : Str) (files : List Str) (x : Extension) (k : FnKind)
    (call : Call) (h : load y base files = .ok x) :
    ∃ dss, Outcome.mapM (fun f => fileDecls y (extensionPath base f)) files = .ok dss ∧
      x.lookup k call = (build (fnDecls dss.flatten)).lookup k call := by
  rw [load_contents] at h
  cases hm : Outcome.mapM (fun f => fileDecls y (extensionPath base f)) files with
  | ub => rw [hm] at h; simp at h
  | throw e => rw [hm] at h; simp at h
  | ok dss =>
    rw [hm] at h
    simp only [Outcome.bind_ok, Outcome.ok.injEq] at h
    refine ⟨dss, rfl, ?_⟩
    rw [lookup_eq, lookup_eq, ← h, foldl_apply_implMap dss.flatten _ Extension.empty (fun _ => rfl)]
    rfl

/-- **C15, multi-line return types.**  The last line of the return expression is what is
decoded, unless the expression ends in a newline: then the empty text is decoded. -/
theorem lastLine_spec (a b : Str) (h : '\n' ∉ b) (hs : a = [] ∨ a.getLast? = some '\n') :
    lastLine (a ++ b) [] = b := by
  have h1 : ∀ (b cur : Str), '\n' ∉ b → lastLine b cur = cur ++ b := by
    intro b
    induction b with
    | nil => intro cur _; simp [lastLine]
    | cons c cs ih =>
      intro cur hb
      simp only [List.mem_cons, not_or] at hb
      simp only [lastLine]
      rw [if_neg (fun e => hb.1 e.symm), ih _ hb.2]
      simp
  have h2 : ∀ (a cur b : Str), lastLine (a ++ '\n' :: b) cur = lastLine b [] := by
    intro a
    induction a with
    | nil => intro cur b; simp [lastLine]
    | cons c cs ih =>
      intro cur b
      simp only [List.cons_append, lastLine]
      split
      · exact ih _ _
      · exact ih _ _
  rcases hs with rfl | hs
  · simpa using h1 b [] h
  · obtain ⟨a', rfl⟩ : ∃ a', a = a' ++ ['\n'] := by
      cases a with
      | nil => simp at hs
      | cons c cs =>
        refine ⟨(c :: cs).dropLast, ?_⟩
        have := List.dropLast_concat_getLast (l := c :: cs) (by simp)
        rw [List.getLast?_eq_some_getLast (by simp)] at hs
        simp only [Option.some.injEq] at hs
        rw [hs] at this
        exact this.symm
    rw [List.append_assoc, List.singleton_append, h2]
    simpa using h1 b [] h

/-- Non-vacuity of C15: a two-file load, read in order. -/
example :
    let y : Yaml := ⟨fun p =>
      if p = "/e/a.yaml".toList then .ok (.map [("scalar_functions".toList, .seq [.map
        [("name".toList, .scalar "not".toList), ("impls".toList, .seq [.map
          [("args".toList, .seq [.map [("value".toList, .scalar "boolean?".toList)]]),
           ("return".toList, .scalar "boolean?".toList)]])]])])
      else if p = "/e/b.yaml".toList then .ok (.map [("types".toList, .seq [.map
        [("name".toList, .scalar "point".toList)]])])
      else .throw .other, fun _ => none, fun _ => none⟩
    ∃ x, load y "/e/x.yaml".toList ["a.yaml".toList, "b.yaml".toList] = .ok x ∧
      x.lookupType "point".toList = some ⟨"point".toList, "/e/b.yaml".toList⟩ ∧
      ∃ f, x.lookup .scalar (concreteCall "not".toList [.scalar .bool true] none) = .ok (some f) :=
  ⟨_, rfl, rfl, _, rfl⟩

/-! ## C50 -/

theorem get_field (es : List (Str × Node)) (key : String) :
    (Node.map es).get key.toList = .ok ((field es key).getD .undef) := rfl

theorem decodeArg_of {y : Yaml} {n : Node} {a : Arg} (h : ArgNode y n a) :
    decodeArg y n = .ok a := by
  cases h with
  | enum h1 h2 =>
    simp only [decodeArg, Outcome.bind_ok, Option.getD_some, Option.getD_none, if_true, Bool.false_eq_true, if_false, get_field, h1, h2, Node.defined]
  | enumRequired h1 h2 h3 =>
    simp only [decodeArg, Outcome.bind_ok, Option.getD_some, Option.getD_none, if_true, Bool.false_eq_true, if_false, get_field, h1, h2, h3, Node.defined, Node.bool]
  | value h1 h2 h3 =>
    simp only [decodeArg, Outcome.bind_ok, Option.getD_some, Option.getD_none, if_true, Bool.false_eq_true, if_false, get_field, h1, h2, h3, Node.defined]
  | type h1 h2 h3 =>
    simp only [decodeArg, Outcome.bind_ok, Option.getD_some, Option.getD_none, if_true, Bool.false_eq_true, if_false, get_field, h1, h2, h3, Node.defined]

/-- **C50.**  A well-formed implementation node of an extension file becomes exactly the
implementation it declares: arguments in order, return type, variadic bounds, intermediate
type, and the name and file it was found under. -/
theorem decodeImpl_of (y : Yaml) (k : FnKind) (name uri : Str) (es : List (Str × Node))
    (args : List Arg) (ret : PType) (var : Option Variadic) (cls : Class)
    (h1 : ArgsField y (field es "args") args) (h2 : ReturnField (field es "return") ret)
    (h3 : VariadicField y (field es "variadic") var)
    (h4 : ClassField k (field es "intermediate") cls) :
    decodeImpl y k name uri (.map es) = .ok ⟨name, uri, args, ret, var, cls⟩ := by
  have hr : decodeReturn (.map es) = .ok ret := by
    unfold decodeReturn
    rw [get_field]
    generalize field es "return" = f at h2
    cases h2 with
    | absent => rfl
    | present hp hl hd =>
      simp only [Option.getD_some, Outcome.bind_ok]
      rw [lastLine_spec _ _ hl hp, hd]
  have ha : decodeArgs y (.map es) = .ok args := by
    unfold decodeArgs
    rw [get_field]
    generalize field es "args" = f at h1
    cases h1 with
    | absent => rfl
    | present hn =>
      simp only [Option.getD_some, Outcome.bind_ok]
      induction hn with
      | nil => rfl
      | cons hx _ ih => rw [Outcome.mapM_cons, decodeArg_of hx, ih]; rfl
  have hv : decodeVariadic y (.map es) = .ok var := by
    unfold decodeVariadic
    rw [get_field]
    generalize field es "variadic" = f at h3
    cases h3 with
    | absent => rfl
    | noMin a => simp only [Outcome.bind_ok, Option.getD_some, Option.getD_none, if_true, Bool.false_eq_true, if_false, get_field, a, Node.defined]
    | atLeast a b c => simp only [Outcome.bind_ok, Option.getD_some, Option.getD_none, if_true, Bool.false_eq_true, if_false, get_field, a, b, c, Node.defined, Node.int]
    | between a b c d => simp only [Outcome.bind_ok, Option.getD_some, Option.getD_none, if_true, Bool.false_eq_true, if_false, get_field, a, b, c, d, Node.defined, Node.int]
  unfold decodeImpl decodeImplBase
  rw [hr, ha, hv]
  simp only [Outcome.bind_ok]
  rw [get_field]
  generalize field es "intermediate" = f at h4
  cases h4 with
  | other hk => cases k <;> first | rfl | exact absurd rfl hk
  | noIntermediate => rfl
  | intermediate hd => simp [Node.defined, Node.str, hd]

/-- Non-vacuity of C50: a variadic aggregate with two arguments and a two-line return
expression. -/
example (y : Yaml) (hy : y.int "2".toList = some 2) :
    decodeImpl y .aggregate "f".toList "u".toList (.map
      [("args".toList, .seq [.map [("value".toList, .scalar "i32".toList)],
          .map [("options".toList, .seq [])]]),
       ("variadic".toList, .map [("min".toList, .scalar "2".toList)]),
       ("return".toList, .scalar "x = 1\ni64?".toList)]) =
      .ok ⟨"f".toList, "u".toList, [.value (.scalar .i32 false), .enum false],
        .scalar .i64 true, some ⟨2, none⟩, .aggregate .null⟩ := by
  apply decodeImpl_of
  · exact .present (.cons (.value rfl rfl (by rfl)) (.cons (.enum rfl rfl) .nil))
  · exact .present (pre := "x = 1\n".toList) (line := "i64?".toList) (by decide) (by decide)
      (by rfl)
  · exact .atLeast rfl hy rfl
  · exact .noIntermediate

end Verif.Fn
