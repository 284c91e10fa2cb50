import Verif.Lemmas.WholeAgainNames
import Verif.Prop.Whole

/-! # The functions that are read are ones that text can express -/

namespace Verif.Whole

open Verif Verif.TyPb Verif.Literal Verif.Expr Verif.Schema

variable {p : Input} {bs : List Ext.Block}

/-! ## The symbols of functions -/

theorem issued_congr : ∀ (l : List Str) {q q' : List Str}, (∀ b, q.count b = q'.count b) →
    Sym.issued q l = Sym.issued q' l
  | [], _, _, _ => rfl
  | b :: l, q, q', h => by
    rw [Sym.issued, Sym.issued, h b, issued_congr l fun c => ?_]
    rw [List.count_append, List.count_append, h]

/-- Which names are handed out does not depend on the order of the requests. -/
theorem issued_perm {l l' : List Str} (h : l.Perm l') :
    ∀ q, (Sym.issued q l).Perm (Sym.issued q l') := by
  induction h with
  | nil => intro q; exact .refl _
  | cons x _ ih => intro q; exact .cons _ (ih _)
  | trans _ _ ih1 ih2 => intro q; exact (ih1 q).trans (ih2 q)
  | swap x y l =>
    intro q
    rw [Sym.issued, Sym.issued, Sym.issued, Sym.issued]
    by_cases he : x = y
    · subst he; exact .refl _
    · rw [issued_congr l (q := q ++ [y] ++ [x]) (q' := q ++ [x] ++ [y]) (by
        intro b; simp only [List.count_append]; omega)]
      have h1 : (q ++ [y]).count x = q.count x := by
        rw [List.count_append, List.count_eq_zero.mpr (show x ∉ [y] by simpa using he),
          Nat.add_zero]
      have h2 : (q ++ [x]).count y = q.count y := by
        rw [List.count_append, List.count_eq_zero.mpr (show y ∉ [x] by simpa using Ne.symm he), Nat.add_zero]
      rw [h1, h2]
      exact .swap _ _ _

theorem functions_symbols (fs : List Ext.PbFunction) :
    ∀ (u : Counters) (l : List Ext.FunSym) (q : List Str), Counted u q →
      (fs.foldl Ext.addFunction (u, l)).2.map (·.symbol) =
        l.map (·.symbol) ++ Sym.issued q (fs.map fun f => Ext.shortName f.name) := by
  induction fs with
  | nil => intro u l q _; simp [Sym.issued]
  | cons f fs ih =>
    intro u l q h
    have := ih _ (l ++ [⟨(u.getUniqueName (Ext.shortName f.name)).2, f.name, some f.uriRef,
      f.anchor⟩]) _ (h.next (Ext.shortName f.name))
    rw [List.map_append, List.append_assoc] at this
    rw [List.map_cons, Sym.issued, ← h.name]
    exact this

/-- The short names of the functions. -/
def shorts (p : Input) : List Str := p.functions.map fun f => Ext.shortName f.name

theorem funs_symbols (p : Input) : p.table.funs.map (·.symbol) = Sym.issued [] (shorts p) := by
  have := functions_symbols p.functions Sym.Table.empty [] [] counted_empty
  simp only [List.map_nil, List.nil_append] at this
  exact this

theorem funs_names (p : Input) : p.table.funs.map (·.name) = p.functions.map (·.name) := by
  have := congrArg (List.map fun x => x.2.1) (Ext.readBinary_funs p.uris p.functions)
  simp only [List.map_map, Function.comp_def] at this
  exact this

theorem funs_anchors (p : Input) : p.table.funs.map (·.anchor) = p.functions.map (·.anchor) := by
  have := congrArg (List.map fun x => x.1) (Ext.readBinary_funs p.uris p.functions)
  simp only [List.map_map, Function.comp_def] at this
  exact this

/-! ## The functions of the plan that is made of the blocks -/

/-- The plan with the functions of the blocks. -/
def onward (bs : List Ext.Block) (names : List Str) (rel : BRel) : Input :=
  ⟨Ext.binaryUris (readTable bs), Ext.binaryFunctions (readTable bs), names, rel⟩

variable {names : List Str} {rel : BRel}

theorem onward_names (h : FunsFit p.table bs) :
    ((onward bs names rel).functions.map (·.name)).Perm (p.functions.map (·.name)) := by
  have h1 := (Ext.binary_complete (readTable bs)).map (·.name)
  rw [List.map_map] at h1
  have h2 := (described_perm h).map fun x => x.2.2
  simp only [Ext.described, List.map_map, Function.comp_def] at h2
  rw [funs_names] at h2
  exact h1.trans h2

theorem onward_shorts (h : FunsFit p.table bs) : (shorts (onward bs names rel)).Perm (shorts p) := by
  have := (onward_names (names := names) (rel := rel) h).map Ext.shortName
  simp only [List.map_map, Function.comp_def] at this
  exact this

theorem onward_symbols (h : FunsFit p.table bs) :
    ((onward bs names rel).table.funs.map (·.symbol)).Perm (p.table.funs.map (·.symbol)) := by
  rw [funs_symbols, funs_symbols]
  exact issued_perm (onward_shorts h) []

theorem onward_alike (h : FunsFit p.table bs) :
    Alike (startCounters p) (startCounters (onward bs names rel)) := by
  refine ⟨_, _, counted_start p, counted_start _, fun b => ?_⟩
  unfold firstRequests
  rw [List.count_append, List.count_append]
  congr 1
  exact ((onward_shorts h).count_eq b).symm

theorem onward_symbol (h : FunsFit p.table bs) {f : Ext.FunSym}
    (hf : f ∈ (onward bs names rel).table.funs) : ∃ g ∈ p.table.funs, g.symbol = f.symbol :=
  List.mem_map.mp ((onward_symbols h).mem_iff.mp (List.mem_map.mpr ⟨f, hf, rfl⟩))

theorem onward_name (h : FunsFit p.table bs) {f : Ext.FunSym}
    (hf : f ∈ (onward bs names rel).table.funs) : ∃ g ∈ p.table.funs, g.name = f.name := by
  have : f.name ∈ (onward bs names rel).table.funs.map (·.name) := List.mem_map.mpr ⟨f, hf, rfl⟩
  rw [funs_names, (onward_names h).mem_iff, ← funs_names] at this
  exact List.mem_map.mp this

/-! ### URIs -/

theorem read_spaces (bs : List Ext.Block) :
    (readTable bs).spaces = (bs.filterMap (·.uri)).mapIdx fun i u => ⟨u, i + 1⟩ := by
  rw [readTable, Ext.spaces_numbered, Ext.uris, List.filterMap_map]
  rfl

theorem onward_uri {u : Ext.PbUri} (hu : u ∈ (onward bs names rel).uris) :
    ∃ b ∈ bs, b.uri = some u.uri := by
  obtain ⟨s, hs, rfl⟩ := List.mem_map.mp hu
  rw [read_spaces] at hs
  obtain ⟨i, hi, rfl⟩ := List.mem_mapIdx.mp hs
  exact List.mem_filterMap.mp (List.getElem_mem hi)

theorem uriOf_getElem (us : List Str) (n a : Nat) (u : Str)
    (h : Ext.uriOf (us.mapIdx fun j v => ⟨v, n + j + 1⟩) a = some u) :
    ∃ i, a = n + i + 1 ∧ us[i]? = some u := by
  induction us generalizing n with
  | nil => simp [Ext.uriOf] at h
  | cons v us ih =>
    simp only [List.mapIdx_cons, Ext.uriOf] at h
    split at h
    · next he =>
      refine ⟨0, by omega, by simpa using h⟩
    · obtain ⟨i, hi, h1⟩ := ih (n + 1) (by
        rw [← h]
        congr 1
        apply List.mapIdx_eq_mapIdx_iff.mpr
        intro j hj
        simp; omega)
      exact ⟨i + 1, by omega, by simpa using h1⟩

/-- The blocks have different URIs. -/
theorem blocks_uris {sort : Ext.Sorter} {t : Ext.Table} (hp : Ext.AllPlaced t)
    (hb : Ext.blocks sort t = .ok bs) :
    bs.Pairwise fun a b => Ext.optLess a.uri b.uri = true := by
  rw [Ext.blocks_placed sort t hp] at hb
  simp only [Outcome.ok.injEq] at hb
  subst hb
  rw [List.pairwise_map]
  exact (Ext.held_setOf t).sorted

theorem uris_nodup (h : bs.Pairwise fun a b => Ext.optLess a.uri b.uri = true) :
    (bs.filterMap (·.uri)).Nodup := by
  rw [List.nodup_iff_pairwise_ne, List.pairwise_filterMap]
  refine h.imp ?_
  intro a b hab x hx y hy e
  subst e
  rw [hx, hy] at hab
  simp [Ext.optLess, Ext.strLess_irrefl] at hab

theorem read_uri_unique (h : (bs.filterMap (·.uri)).Nodup) {a b : Nat} {u : Str}
    (ha : Ext.uriOf (readTable bs).spaces a = some u)
    (hb : Ext.uriOf (readTable bs).spaces b = some u) : a = b := by
  rw [read_spaces] at ha hb
  obtain ⟨i, rfl, hi⟩ := uriOf_getElem _ 0 a u (by simpa using ha)
  obtain ⟨j, rfl, hj⟩ := uriOf_getElem _ 0 b u (by simpa using hb)
  obtain ⟨hi', -⟩ := List.getElem?_eq_some_iff.mp hi
  have := (List.getElem?_inj hi' h).mp (hi.trans hj.symm)
  rw [this]

theorem onward_function {f : Ext.FunSym} (hf : f ∈ (onward bs names rel).table.funs) :
    ∃ g ∈ (readTable bs).funs, f.anchor = g.anchor ∧ f.name = g.name ∧
      f.space = some (Ext.declare (readTable bs).spaces g).uriRef ∧
      f.space.bind (Ext.uriOf (onward bs names rel).table.spaces) =
        g.space.bind (Ext.uriOf (readTable bs).spaces) := by
  have hm : (f.anchor, f.name, f.space) ∈
      (onward bs names rel).functions.map fun f => (f.anchor, f.name, some f.uriRef) := by
    rw [← Ext.readBinary_funs (onward bs names rel).uris]
    exact List.mem_map.mpr ⟨f, hf, rfl⟩
  obtain ⟨d, hd, e⟩ := List.mem_map.mp hm
  simp only [Prod.mk.injEq] at e
  obtain ⟨g, hg, rfl⟩ := List.mem_map.mp ((Ext.binary_complete _).mem_iff.mp hd)
  refine ⟨g, hg, e.1.symm, e.2.1.symm, e.2.2.symm, ?_⟩
  rw [← e.2.2, Option.bind_some, Input.table, Ext.uriOf_readBinary]
  exact Ext.binary_resolves_text _ g

theorem onward_distinct (h : (bs.filterMap (·.uri)).Nodup) :
    Ext.Distinct (onward bs names rel).table := by
  intro f hf g hg e
  obtain ⟨f', -, -, -, f1, f2⟩ := onward_function hf
  obtain ⟨g', -, -, -, g1, g2⟩ := onward_function hg
  rw [f2, g2] at e
  rw [f1, g1]
  congr 1
  unfold Ext.declare
  simp only
  cases hf' : f'.space with
  | none =>
    rw [hf', Option.bind_none] at e
    cases hg' : g'.space with
    | none => rfl
    | some b =>
      rw [hg', Option.bind_some] at e
      simp [← e]
  | some a =>
    rw [hf', Option.bind_some] at e
    cases hg' : g'.space with
    | none =>
      rw [hg', Option.bind_none] at e
      simp [e]
    | some b =>
      rw [hg', Option.bind_some] at e
      cases hu : Ext.uriOf (readTable bs).spaces a with
      | none => rw [hu] at e; simp [hu, ← e]
      | some u =>
        rw [hu] at e
        have := read_uri_unique h hu e.symm
        subst this
        rfl

theorem onward_functionsFit (h : FunctionsFit p) (hb : FunsFit p.table bs)
    (hu : ∀ b ∈ bs, ∀ u, b.uri = some u → ∃ x ∈ p.uris, x.uri = u)
    (hn : (bs.filterMap (·.uri)).Nodup) : FunctionsFit (onward bs names rel) where
  anchors := (sameFunctions (b := ⟨_, _, []⟩) hb rfl rfl).once
  symbols := (onward_symbols hb).nodup_iff.mpr h.symbols
  distinct := onward_distinct hn
  uris := by
    intro u hm
    obtain ⟨b, hb', e⟩ := onward_uri hm
    obtain ⟨x, hx, e'⟩ := hu b hb' _ e
    rw [← e']
    exact h.uris x hx
  named := by
    intro f hf
    obtain ⟨g, hg, e⟩ := onward_symbol hb hf
    rw [← e]
    exact h.named g hg
  typed := by
    intro f hf
    obtain ⟨g, hg, e⟩ := onward_name hb hf
    rw [← e]
    exact h.typed g hg

/-! ## The whole plan -/

variable {ρ : Nat → Nat}

theorem owns_again (r : NRel) {α : Type} (φ : Own → List α)
    (h : ∀ (o : Own) n f, φ (o.again ρ n f) = φ o) :
    (owns (erase (again ρ r))).flatMap φ = (owns (erase r)).flatMap φ := by
  rw [owns_subs, owns_subs, subs_again, List.flatMap_map, List.flatMap_map, List.flatMap_map]
  congr 1
  funext x
  rw [again_own, h]

theorem columns_again (r : NRel) : columns (erase (again ρ r)) = columns (erase r) :=
  owns_again r _ fun _ _ _ => rfl

theorem tables_again (r : NRel) : tables (erase (again ρ r)) = tables (erase r) :=
  owns_again r _ fun _ _ _ => rfl

theorem fileKeys_again (r : NRel) : fileKeys (erase (again ρ r)) = fileKeys (erase r) :=
  owns_again r _ fun _ _ _ => rfl

theorem onward_declared (h : FunsFit p.table bs) {a : Nat} (ha : Declared p a) :
    Declared (onward bs names rel) (newNumber p.table bs a) := by
  rw [← inTable_declared] at ha
  obtain ⟨f, hf, rfl⟩ := ha
  obtain ⟨g, hg, -, -, -, -, -, h4, -⟩ := function_read h hf
  rw [h4]
  refine ⟨Ext.declare (readTable bs).spaces g, ?_, rfl⟩
  exact (Ext.binary_complete _).mem_iff.mpr (List.mem_map.mpr ⟨g, hg, rfl⟩)

/-- What is read is a plan that text can express. -/
theorem onward_expressible {lib : Lib} (h : Expressible lib p) (hb : FunsFit p.table bs)
    (hu : ∀ b ∈ bs, ∀ u, b.uri = some u → ∃ x ∈ p.uris, x.uri = u)
    (hn : (bs.filterMap (·.uri)).Nodup) {r : NRel} (he : erase r = p.rel) {gn : Known}
    (hg : ∀ x ∈ subs r, Good lib gn x) :
    Expressible lib (onward bs p.names (erase (again (newNumber p.table bs) r))) where
  tree := treeFits_again (fn := ⟨Declared p, fun n => n = [], fun _ _ => False⟩)
    (fn' := ⟨Declared (onward bs p.names (erase (again (newNumber p.table bs) r))), fun n => n = [],
      fun _ _ => False⟩)
    ⟨fun _ h => onward_declared hb h, fun _ h => h, fun _ _ h => h⟩ r [] hg (by rw [he]; exact h.tree)
  functions := onward_functionsFit h.functions hb hu hn
  names := {
    columns := by
      show ∀ n ∈ columns (erase (again _ r)), _
      rw [columns_again, he]
      exact h.names.columns
    tables := by
      show ∀ n ∈ tables (erase (again _ r)), _ ∧ _ ∧ n ∉ fileKeys (erase (again _ r))
      rw [tables_again, fileKeys_again, he]
      exact h.names.tables
    uris := by
      intro u hm
      obtain ⟨b, hb', e⟩ := onward_uri hm
      obtain ⟨x, hx, e'⟩ := hu b hb' _ e
      rw [← e']
      exact h.names.uris x hx
    files := by
      show (fileKeys (erase (again _ r))).Nodup
      rw [fileKeys_again, he]
      exact h.names.files
    functions := by
      intro f hf
      obtain ⟨g, hg', e⟩ := onward_symbol hb hf
      show _ ∧ _ ∉ columns (erase (again _ r)) ∧ _ ∉ tables (erase (again _ r)) ∧ _
      rw [columns_again, tables_again, he, ← e]
      have := h.names.functions g hg'
      refine ⟨this.1, this.2.1, this.2.2.1, fun u hm => ?_⟩
      obtain ⟨b, hb', e2⟩ := onward_uri hm
      obtain ⟨x, hx, e3⟩ := hu b hb' _ e2
      rw [← e3]
      exact this.2.2.2 x hx }
  root := h.root

/-! ## Saying the same twice -/

theorem sameEmit_renumber (w : Nat) (b : Rel.Body) (e e' : List Int) :
    SameEmit w (renumberBody ρ b) e e' ↔ SameEmit w b e e' := by
  cases b <;> simp only [renumberBody, SameEmit, standsOf_renumber]

theorem sameEmit_trans {w : Nat} {b : Rel.Body} {e e' e'' : List Int} (h : SameEmit w b e e')
    (h' : SameEmit w b e' e'') : SameEmit w b e e'' := by
  unfold SameEmit at *
  split <;> simp_all

mutual
theorem same_trans {lib : Lib} {gn : Known} {ρ' : Nat → Nat} : ∀ (r : NRel) (c : BRel),
    (∀ x ∈ subs r, Good lib gn x) → Same ρ' (erase (again ρ r)) c →
      Same (fun a => ρ' (ρ a)) (erase r) c
  | .node n o kids, .node o' kids', hg, h => by
    have hx := hg (.node n o kids) (by rw [subs]; simp)
    have hk : ∀ x ∈ subsL kids, Good lib gn x := fun x hx => hg x (by rw [subs]; simp [hx])
    rw [again, erase, Same] at h
    rw [erase, Same]
    obtain ⟨h1, h2, h3, h4, h5⟩ := h
    have hin : inKinds (o.again ρ n (inCols o kids)) (eraseL (againL ρ kids)) =
        inKinds o (eraseL kids) := by
      rw [← inCols_kinds, ← inCols_kinds]
      have := inCols_again (ρ := ρ) hg
      unfold NRel.inCols at this
      rw [again] at this
      exact congrArg _ this
    rw [hin] at h2
    have he := sameEmit_new hx
    rw [show (NRel.node n o kids).inCols = inCols o kids from rfl, inCols_length] at he
    refine ⟨?_, ?_, h3, h4, sameL_trans kids kids' hk h5⟩
    · rw [h1]
      exact renumberBody_again (fun _ => rfl) o.body
    · exact sameEmit_trans he ((sameEmit_renumber (ρ := ρ) _ _ _ _).mp h2)
theorem sameL_trans {lib : Lib} {gn : Known} {ρ' : Nat → Nat} : ∀ (rs : List NRel) (cs : List BRel),
    (∀ x ∈ subsL rs, Good lib gn x) → SameL ρ' (eraseL (againL ρ rs)) cs →
      SameL (fun a => ρ' (ρ a)) (eraseL rs) cs
  | [], [], _, _ => trivial
  | [], _ :: _, _, h => h
  | _ :: _, [], _, h => h
  | r :: rs, c :: cs, hg, h => by
    rw [againL, eraseL, SameL] at h
    rw [eraseL, SameL]
    exact ⟨same_trans r c (fun x hx => hg x (by rw [subsL]; simp [hx])) h.1,
      sameL_trans rs cs (fun x hx => hg x (by rw [subsL]; simp [hx])) h.2⟩
end

end Verif.Whole
