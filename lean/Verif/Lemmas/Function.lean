import Verif.Spec.Function
import Verif.Lemmas.TypeMatch
import Verif.Lemmas.TypeSplit

/-! Helper lemmas on function lookup and loading. -/

namespace Verif.Fn

open Verif Ty

theorem find_add (m : ImplMap) (f : Impl) (name : Str) :
    (m.add f).find name =
      if f.name = name then some ((m.find name).getD [] ++ [f]) else m.find name := by
  induction m with
  | nil =>
    simp only [ImplMap.add, ImplMap.find, List.find?_cons, List.find?_nil]
    by_cases h : f.name = name <;> simp [h]
  | cons e rest ih =>
    obtain ⟨n, fs⟩ := e
    simp only [ImplMap.add]
    by_cases hn : n = f.name
    · rw [if_pos hn]
      simp only [ImplMap.find, List.find?_cons]
      by_cases h : f.name = name
      · subst h; simp [hn]
      · have : ¬ n = name := by rw [hn]; exact h
        simp [h, this]
    · rw [if_neg hn]
      simp only [ImplMap.find, List.find?_cons] at ih ⊢
      by_cases h : n = name
      · have : ¬ f.name = name := fun e => hn (h.trans e.symm)
        simp [h, this]
      · simp only [h, decide_false]
        exact ih

theorem find_addImpl (x : Extension) (k k' : FnKind) (f : Impl) (name : Str) :
    ((x.addImpl k f).implMap k').find name =
      if k = k' ∧ f.name = name then some (((x.implMap k').find name).getD [] ++ [f])
      else (x.implMap k').find name := by
  cases k <;> cases k' <;> simp [Extension.addImpl, Extension.implMap, find_add]

/-- The map after a history holds exactly the declarations of the name, in order. -/
theorem find_foldl (h : History) (x : Extension) (k : FnKind) (name : Str) :
    (((h.foldl (fun x e => x.addImpl e.1 e.2) x).implMap k).find name).getD [] =
      ((x.implMap k).find name).getD [] ++ declared h k name := by
  induction h generalizing x with
  | nil => simp [declared]
  | cons e h ih =>
    simp only [List.foldl_cons]
    rw [ih, find_addImpl]
    by_cases hc : e.1 = k ∧ e.2.name = name
    · rw [if_pos hc]; simp [declared, hc]
    · rw [if_neg hc]; simp [declared, hc]

theorem find_build (h : History) (k : FnKind) (name : Str) :
    (((build h).implMap k).find name).getD [] = declared h k name := by
  unfold build
  rw [find_foldl]
  cases k <;> simp [Extension.empty, Extension.implMap, ImplMap.find]

theorem lookup_eq (x : Extension) (k : FnKind) (call : Call) :
    x.lookup k call = firstMatch (((x.implMap k).find call.name).getD []) call := by
  unfold Extension.lookup
  cases (x.implMap k).find call.name <;> rfl

theorem lookup_build (h : History) (k : FnKind) (call : Call) :
    (build h).lookup k call = firstMatch (declared h k call.name) call := by
  rw [lookup_eq, find_build]

theorem firstMatch_some {fs : List Impl} {call : Call} {f : Impl} :
    firstMatch fs call = .ok (some f) ↔ ∃ pre post, fs = pre ++ f :: post ∧
      tryMatch f call = .ok true ∧ ∀ g ∈ pre, tryMatch g call = .ok false := by
  induction fs with
  | nil => simp [firstMatch]
  | cons g gs ih =>
    simp only [firstMatch]
    cases hg : tryMatch g call with
    | ub =>
      simp only [Outcome.bind_ub]
      constructor
      · intro h; simp at h
      · rintro ⟨pre, post, e, h1, h2⟩
        cases pre with
        | nil => simp at e; rw [← e.1, hg] at h1; simp at h1
        | cons a as => simp at e; have := h2 a (by simp); rw [← e.1, hg] at this; simp at this
    | throw x =>
      simp only [Outcome.bind_throw]
      constructor
      · intro h; simp at h
      · rintro ⟨pre, post, e, h1, h2⟩
        cases pre with
        | nil => simp at e; rw [← e.1, hg] at h1; simp at h1
        | cons a as => simp at e; have := h2 a (by simp); rw [← e.1, hg] at this; simp at this
    | ok b =>
      cases b with
      | true =>
        simp only [Outcome.bind_ok, if_true, Outcome.ok.injEq, Option.some.injEq]
        constructor
        · rintro rfl; exact ⟨[], gs, rfl, hg, by simp⟩
        · rintro ⟨pre, post, e, h1, h2⟩
          cases pre with
          | nil => simp at e; exact e.1
          | cons a as =>
            simp at e; have := h2 a (by simp); rw [← e.1, hg] at this; simp at this
      | false =>
        simp only [Outcome.bind_ok, Bool.false_eq_true, if_false]
        rw [ih]
        constructor
        · rintro ⟨pre, post, e, h1, h2⟩
          refine ⟨g :: pre, post, by simp [e], h1, ?_⟩
          intro a ha
          rcases List.mem_cons.mp ha with rfl | ha
          · exact hg
          · exact h2 a ha
        · rintro ⟨pre, post, e, h1, h2⟩
          cases pre with
          | nil => simp at e; rw [← e.1, hg] at h1; simp at h1
          | cons a as =>
            simp at e
            exact ⟨as, post, e.2, h1, fun b hb => h2 b (by simp [hb])⟩

theorem firstMatch_none {fs : List Impl} {call : Call} :
    firstMatch fs call = .ok none ↔ ∀ g ∈ fs, tryMatch g call = .ok false := by
  induction fs with
  | nil => simp [firstMatch]
  | cons g gs ih =>
    simp only [firstMatch, List.mem_cons, forall_eq_or_imp]
    cases hg : tryMatch g call with
    | ub => simp
    | throw x => simp
    | ok b => cases b <;> simp [ih]

theorem firstMatch_append {fs gs : List Impl} {call : Call} :
    firstMatch (fs ++ gs) call =
      (firstMatch fs call).bind fun r =>
        match r with
        | some f => .ok (some f)
        | none => firstMatch gs call := by
  induction fs with
  | nil => simp [firstMatch]
  | cons g fs ih =>
    simp only [List.cons_append, firstMatch]
    cases hg : tryMatch g call with
    | ub => simp
    | throw x => simp
    | ok b => cases b <;> simp [ih]

theorem firstMatch_mem {fs : List Impl} {call : Call} {f : Impl}
    (h : firstMatch fs call = .ok (some f)) : f ∈ fs := by
  obtain ⟨pre, post, e, _⟩ := firstMatch_some.mp h
  simp [e]

theorem declared_append (h h' : History) (k : FnKind) (name : Str) :
    declared (h ++ h') k name = declared h k name ++ declared h' k name := by
  simp [declared]

/-! ## tryMatch -/

theorem ok_true_or_false {o : Outcome Bool} (h : ∃ b, o = .ok b) : o = .ok true ∨ o = .ok false := by
  obtain ⟨b, rfl⟩ := h
  cases b <;> simp

theorem isMatch_decl_ok {d : PType} (h : d.isDecl = true) (c : CType) :
    ∃ b, isMatch d c.obj = .ok b := ⟨_, isMatch_decl d c h⟩

theorem matchAll_ok {l : List (PType × CType)} (h : ∀ e ∈ l, e.1.isDecl = true) :
    ∃ b, matchAll (l.map fun e => (e.1, e.2.obj)) = .ok b := by
  induction l with
  | nil => exact ⟨true, rfl⟩
  | cons e l ih =>
    obtain ⟨b, hb⟩ := isMatch_decl_ok (h e (by simp)) e.2
    obtain ⟨b', hb'⟩ := ih (fun x hx => h x (by simp [hx]))
    simp only [List.map_cons, matchAll]
    rw [hb, hb', andThen_ok]
    cases b <;> simp

theorem matchAll_true {l : List (PType × PType)} :
    matchAll l = .ok true ↔ ∀ e ∈ l, isMatch e.1 e.2 = .ok true := by
  induction l with
  | nil => simp [matchAll]
  | cons e l ih => obtain ⟨d, a⟩ := e; simp [matchAll, andThen_true, ih]

theorem zip_objs (ds : List PType) (as : List CType) :
    ds.zip (CType.objs as) = (ds.zip as).map fun e => (e.1, e.2.obj) := by
  rw [objs_eq, List.zip_map_right]
  rfl

theorem acceptAll_iff {ds : List PType} {as : List CType} :
    AcceptAll ds as ↔ ds.length = as.length ∧ matchAll (ds.zip (CType.objs as)) = .ok true := by
  induction ds generalizing as with
  | nil =>
    cases as with
    | nil => simp [matchAll, AcceptAll.nil]
    | cons a as => simp; intro h; cases h
  | cons d ds ih =>
    cases as with
    | nil => simp; intro h; cases h
    | cons a as =>
      simp only [CType.objs, List.zip_cons_cons, matchAll, andThen_true, List.length_cons]
      constructor
      · intro h; cases h with
        | cons h1 h2 => have := ih.mp h2; exact ⟨by omega, h1, this.2⟩
      · rintro ⟨h1, h2, h3⟩; exact .cons h2 (ih.mpr ⟨by omega, h3⟩)

theorem mem_valueTypes {args : List Arg} {t : PType} (h : t ∈ valueTypes args) :
    .value t ∈ args := by
  simp only [valueTypes, List.mem_filterMap] at h
  obtain ⟨a, ha, e⟩ := h
  cases a <;> simp at e
  subst e; exact ha

theorem matchArgs_ok {f : Impl} (h : f.WellFormed) (args : List CType) :
    ∃ b, matchArgs f (CType.objs args) = .ok b := by
  unfold matchArgs
  cases hv : f.variadic with
  | some v =>
    simp only
    split
    · exact ⟨_, rfl⟩
    · cases ha : f.args with
      | nil => exact absurd ha (h.variadic (by simp [hv]))
      | cons a rest =>
        cases a with
        | value t =>
          simp only
          have := matchAll_ok (l := args.map fun c => (t, c)) (by
            intro e he; simp at he; obtain ⟨c, _, rfl⟩ := he
            exact h.args t (by simp [ha]))
          rw [objs_eq]
          simpa [List.map_map, Function.comp_def] using this
        | enum r => exact ⟨_, rfl⟩
        | type => exact ⟨_, rfl⟩
  | none =>
    simp only
    split
    · exact ⟨_, rfl⟩
    · rw [zip_objs]
      apply matchAll_ok
      intro e he
      exact h.args _ (mem_valueTypes (List.of_mem_zip he).1)

theorem isNull_obj (t : CType) : t.obj.isNull = false := by cases t <;> rfl

theorem isNull_iff (t : PType) : t.isNull = true ↔ t = .null := by cases t <;> simp [PType.isNull]

theorem matchReturn_ok {d : PType} (h : optDecl d) (ret : Option CType) :
    ∃ b, matchReturn d (optObj ret) = .ok b := by
  unfold matchReturn
  rcases h with rfl | h
  · exact ⟨true, by simp [PType.isNull]⟩
  · cases ret with
    | none => exact ⟨true, by simp [optObj, PType.isNull]⟩
    | some t =>
      simp only [optObj, isNull_obj, Bool.or_false]
      cases hd : d.isNull
      · simpa using isMatch_decl_ok h t
      · exact ⟨true, by simp⟩

theorem matchReturn_iff {d : PType} {ret : Option CType} :
    matchReturn d (optObj ret) = .ok true ↔
      ReturnOk d ret := by
  unfold matchReturn ReturnOk
  cases ret with
  | none => simp [optObj, PType.isNull]
  | some t =>
    simp only [optObj, isNull_obj, Bool.or_false]
    by_cases h : d = .null
    · simp [h, PType.isNull]
    · have : d.isNull = false := by
        cases hd : d.isNull
        · rfl
        · exact absurd ((isNull_iff d).mp hd) h
      simp [h, this]

theorem andThen_isOk {a b : Outcome Bool} (ha : ∃ x, a = .ok x) (hb : ∃ x, b = .ok x) :
    ∃ x, a.andThen b = .ok x := by
  obtain ⟨x, rfl⟩ := ha
  obtain ⟨y, rfl⟩ := hb
  cases x <;> simp [andThen_ok]

theorem tryMatchBase_ok {f : Impl} (h : f.WellFormed) (name : Str) (args : List CType)
    (ret : Option CType) : ∃ b, tryMatchBase f (concreteCall name args ret) = .ok b :=
  andThen_isOk (matchArgs_ok h args) (matchReturn_ok h.ret ret)

theorem tryMatch_ok {f : Impl} (h : f.WellFormed) (name : Str) (args : List CType)
    (ret : Option CType) : ∃ b, tryMatch f (concreteCall name args ret) = .ok b := by
  obtain ⟨b, hb⟩ := tryMatchBase_ok h name args ret
  unfold tryMatch
  cases hc : f.cls with
  | scalar => exact ⟨b, hb⟩
  | aggregate t =>
    simp only [hb, Outcome.bind_ok]
    split
    · rename_i hn
      match args with
      | [] => exact ⟨_, rfl⟩
      | [a] =>
        rcases h.inter t hc with rfl | hd
        · simp [PType.isNull] at hn
        · exact isMatch_decl_ok hd a
      | _ :: _ :: _ => exact ⟨_, rfl⟩
    · exact ⟨_, rfl⟩

theorem toSizeT_nonneg {i : Int} (h0 : 0 ≤ i) (h1 : i < 18446744073709551616) :
    (toSizeT i : Int) = i := by
  unfold toSizeT
  rw [Int.emod_eq_of_lt h0 h1]
  omega

/-- The bounds of a variadic form are non-negative `int`s. -/
theorem outOfBounds_iff {v : Variadic} {n : Nat} (hmin : 0 ≤ v.min ∧ v.min < 2147483648)
    (hmax : ∀ m, v.max = some m → 0 ≤ m ∧ m < 2147483648) :
    outOfBounds v n = false ↔ v.min ≤ n ∧ ∀ m, v.max = some m → (n : Int) ≤ m := by
  have h1 := toSizeT_nonneg hmin.1 (by omega)
  unfold outOfBounds
  cases hm : v.max with
  | none => simp; omega
  | some m =>
    have h2 := toSizeT_nonneg (hmax m hm).1 (by have := (hmax m hm).2; omega)
    simp; omega

/-! ## Loading -/

theorem foldOutcome_map {α σ δ : Type} {step : σ → α → Outcome σ} {dec : α → Outcome δ}
    {app : σ → δ → σ} (h : ∀ s a, step s a = (dec a).bind fun d => .ok (app s d)) (s : σ)
    (l : List α) :
    foldOutcome step s l = (Outcome.mapM dec l).bind fun ds => .ok (ds.foldl app s) := by
  induction l generalizing s with
  | nil => rfl
  | cons a l ih =>
    simp only [foldOutcome, Outcome.mapM_cons, h]
    cases dec a with
    | ub => rfl
    | throw e => rfl
    | ok d =>
      simp only [Outcome.bind_ok]
      rw [ih]
      cases Outcome.mapM dec l <;> rfl

theorem foldl_flatten {σ δ : Type} (app : σ → δ → σ) (s : σ) (ds : List (List δ)) :
    ds.foldl (fun s l => l.foldl app s) s = ds.flatten.foldl app s := by
  induction ds generalizing s with
  | nil => rfl
  | cons d ds ih => simp [ih]

theorem bind_assoc {α β γ : Type} (o : Outcome α) (f : α → Outcome β) (g : β → Outcome γ) :
    (o.bind f).bind g = o.bind fun a => (f a).bind g := by
  cases o <;> rfl

theorem map_eq_bind {α β : Type} (o : Outcome α) (f : α → β) : o.map f = o.bind fun a => .ok (f a) := by
  cases o <;> rfl

theorem loadImpls_eq (y : Yaml) (k : FnKind) (name uri : Str) (x : Extension) (l : List Node) :
    loadImpls y k name uri x l =
      (Outcome.mapM (fun i => (decodeImpl y k name uri i).map (Decl.fn k)) l).bind fun ds =>
        .ok (ds.foldl Decl.apply x) := by
  unfold loadImpls
  apply foldOutcome_map
  intro s a
  rw [map_eq_bind, bind_assoc]
  rfl

theorem loadSection_eq (y : Yaml) (k : FnKind) (key uri : Str) (node : Node) (x : Extension) :
    loadSection y k key uri node x =
      (sectionDecls y k key uri node).bind fun ds => .ok (ds.foldl Decl.apply x) := by
  unfold loadSection sectionDecls
  rw [bind_assoc]
  congr 1
  funext fns
  rw [foldOutcome_map (dec := fun fn : Node =>
      (fn.get "name".toList).bind fun n => n.str.bind fun name =>
      (fn.get "impls".toList).bind fun impls =>
        Outcome.mapM (fun i => (decodeImpl y k name uri i).map (Decl.fn k)) impls.items)
    (app := fun s l => l.foldl Decl.apply s)]
  · rw [map_eq_bind, bind_assoc]
    congr 1
    funext ds
    simp only [Outcome.bind_ok, foldl_flatten]
  · intro s a
    unfold loadFunction
    simp only [bind_assoc, loadImpls_eq]

theorem loadTypes_eq (uri : Str) (node : Node) (x : Extension) :
    ((node.get "types".toList).bind fun types => foldOutcome (loadType uri) x types.items) =
      (typeDecls uri node).bind fun ds => .ok (ds.foldl Decl.apply x) := by
  unfold typeDecls
  rw [bind_assoc]
  congr 1
  funext types
  apply foldOutcome_map
  intro s a
  unfold loadType
  rw [bind_assoc]
  congr 1
  funext n
  cases n <;> rfl

theorem loadFile_eq (y : Yaml) (x : Extension) (uri : Str) :
    loadFile y x uri = (fileDecls y uri).bind fun ds => .ok (ds.foldl Decl.apply x) := by
  unfold loadFile fileDecls
  simp only [bind_assoc]
  congr 1
  funext node
  rw [loadSection_eq, bind_assoc]
  congr 1
  funext a
  simp only [Outcome.bind_ok]
  rw [loadSection_eq, bind_assoc]
  congr 1
  funext b
  simp only [Outcome.bind_ok]
  rw [loadTypes_eq]
  congr 1
  funext c
  simp [List.foldl_append]

end Verif.Fn
