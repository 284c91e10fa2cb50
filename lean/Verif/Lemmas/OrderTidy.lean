import Verif.Lemmas.OrderSwap
import Verif.Prop.WholeAgain

/-! # The text that is printed has no ambiguous names -/

namespace Verif.Whole

open Verif
open Verif.Sec (PlanDetail Symbol State visitDefinition)

/-! ## Every name that is given is in the table -/

def SameKind (a b : Sec.Info) : Prop := a = b ∨ ∃ f g, a = .file f ∧ b = .file g

theorem SameKind.minor {a b : Sec.Info} (h : SameKind a b) : Whole.minor a = Whole.minor b := by
  rcases h with rfl | ⟨f, g, rfl, rfl⟩ <;> rfl

theorem SameKind.trans {a b c : Sec.Info} (h1 : SameKind a b) (h2 : SameKind b c) : SameKind a c := by
  rcases h1 with rfl | ⟨f, g, rfl, rfl⟩
  · exact h2
  · rcases h2 with rfl | ⟨f', g', -, rfl⟩
    · exact .inr ⟨_, _, rfl, rfl⟩
    · exact .inr ⟨_, _, rfl, rfl⟩

/-- The names of a list are in another list too, for things of the same kind. -/
def Stays (l l' : List Symbol) : Prop :=
  ∀ s ∈ l, ∃ s' ∈ l', s'.name = s.name ∧ SameKind s'.info s.info

theorem Stays.refl (l : List Symbol) : Stays l l := fun s hs => ⟨s, hs, rfl, .inl rfl⟩

theorem Stays.trans {a b c : List Symbol} (h1 : Stays a b) (h2 : Stays b c) : Stays a c := by
  intro s hs
  obtain ⟨s1, m1, n1, i1⟩ := h1 s hs
  obtain ⟨s2, m2, n2, i2⟩ := h2 s1 m1
  exact ⟨s2, m2, n2.trans n1, i2.trans i1⟩

theorem Stays.cons {a b : List Symbol} {s s' : Symbol} (h : Stays a b) (hn : s'.name = s.name)
    (hi : SameKind s'.info s.info) : Stays (s :: a) (s' :: b) := by
  intro x hx
  rcases List.mem_cons.mp hx with rfl | hx
  · exact ⟨s', by simp, hn, hi⟩
  · obtain ⟨y, hy, h⟩ := h x hx
    exact ⟨y, List.mem_cons_of_mem _ hy, h⟩

theorem applyDetails_kept {n : Str} {ds : List Sec.FileDetail} : ∀ {l l' : List Symbol},
    Sec.applyDetails n ds l = .ok l' → Stays l l'
  | [], l', _ => by intro s hs; simp at hs
  | s :: ss, l', h => by
    unfold Sec.applyDetails at h
    split at h
    · split at h
      · cases h
        exact Stays.refl _
      · next hi _ =>
        obtain ⟨g, -, h2⟩ := Outcome.of_map h
        subst h2
        exact (Stays.refl ss).cons rfl (.inr ⟨_, _, rfl, hi⟩)
      · cases h
    · obtain ⟨g, h1, h2⟩ := Outcome.of_map h
      subst h2
      exact (applyDetails_kept h1).cons rfl (.inl rfl)

theorem addFiles_kept {loc : Nat} : ∀ {fs : List Sec.FileTree} {l l' : List Symbol},
    Sec.addFiles loc fs l = .ok l' → Stays l l' ∧
      ∀ f ∈ fs, ∃ s ∈ l', s.name = f.text ∧ minor s.info = false
  | [], l, l', h => by
    cases h
    exact ⟨Stays.refl _, by simp⟩
  | f :: fs, l, l', h => by
    unfold Sec.addFiles at h
    obtain ⟨a, h1, h2⟩ := Outcome.of_bind h
    obtain ⟨h3, h4⟩ := addFiles_kept h2
    have h5 := (applyDetails_kept h1).trans h3
    refine ⟨fun s hs => h5 s (List.mem_append_left _ hs), fun g hg => ?_⟩
    rcases List.mem_cons.mp hg with rfl | hg
    · obtain ⟨x, hx, e, hk⟩ := h5 ⟨g.text, loc, .file Sec.File.empty⟩ (by simp)
      exact ⟨x, hx, e, hk.minor⟩
    · exact h4 g hg

theorem readColumns_given {loc : Nat} : ∀ {cs : List (Str × Tree.TypeTree)}
    {r : List Symbol × List Expr.RErr}, Sec.readColumns loc cs = .ok r →
      ∀ c ∈ cs, ∃ s ∈ r.1, s.name = c.1 ∧ minor s.info = true
  | [], r, h => by simp
  | c :: cs, r, h => by
    unfold Sec.readColumns at h
    obtain ⟨t, h1, h⟩ := Outcome.of_bind h
    obtain ⟨a, h2, h⟩ := Outcome.of_map h
    subst h
    intro x hx
    rcases List.mem_cons.mp hx with rfl | hx
    · exact ⟨_, List.mem_cons_self .., rfl, rfl⟩
    · obtain ⟨s, hs, h⟩ := readColumns_given h2 x hx
      exact ⟨s, List.mem_cons_of_mem _ hs, h⟩

theorem visitDefinition_given {loc : Nat} {d : PlanDetail} {r : State}
    (h : visitDefinition loc {} d = .ok r) {n : Str} {b : Bool} (hm : (n, b) ∈ given d) :
    ∃ s ∈ r.symbols, s.name = n ∧ minor s.info = !b := by
  cases d with
  | schema id cs =>
    simp only [visitDefinition] at h
    obtain ⟨a, h1, h⟩ := Outcome.of_map h
    subst h
    simp only [given, List.mem_cons, List.mem_map, Prod.mk.injEq] at hm
    rcases hm with ⟨rfl, rfl⟩ | ⟨c, hc, rfl, rfl⟩
    · exact ⟨⟨n, loc, .schema⟩, by simp, rfl, rfl⟩
    · obtain ⟨s, hs, h2, h3⟩ := readColumns_given h1 c hc
      exact ⟨s, by simp [hs], h2, h3⟩
  | source t =>
    simp only [visitDefinition] at h
    obtain ⟨a, h1, h⟩ := Outcome.of_map h
    subst h
    cases t with
    | localFiles id fs =>
      unfold Sec.addSource at h1
      obtain ⟨h2, h3⟩ := addFiles_kept h1
      simp only [given, List.mem_cons, List.mem_map, Prod.mk.injEq] at hm
      rcases hm with ⟨rfl, rfl⟩ | ⟨f, hf, rfl, rfl⟩
      · obtain ⟨x, hx, e, hk⟩ := h2 ⟨n, loc, .source .files⟩ (by simp)
        exact ⟨x, hx, e, hk.minor⟩
      · exact h3 f hf
    | namedTable id ss =>
      cases h1
      simp only [given, List.mem_cons, List.mem_map, Prod.mk.injEq] at hm
      rcases hm with ⟨rfl, rfl⟩ | ⟨x, hx, rfl, rfl⟩
      · exact ⟨⟨n, loc, .source .named⟩, by simp, rfl, rfl⟩
      · exact ⟨⟨Sec.extractFromString x, loc, .table⟩, by simp; exact ⟨x, hx, rfl⟩, rfl, rfl⟩
    | virtualTable id =>
      cases h1
      simp only [given, List.mem_singleton, Prod.mk.injEq] at hm
      obtain ⟨rfl, rfl⟩ := hm
      exact ⟨⟨n, loc, .source .virtual⟩, by simp, rfl, rfl⟩
    | extensionTable id =>
      cases h1
      simp only [given, List.mem_singleton, Prod.mk.injEq] at hm
      obtain ⟨rfl, rfl⟩ := hm
      exact ⟨⟨n, loc, .source .extension⟩, by simp, rfl, rfl⟩
  | space t =>
    simp only [visitDefinition] at h
    cases h
    simp only [given, List.mem_append, List.mem_map, Prod.mk.injEq] at hm
    rcases hm with ⟨u, hu, rfl, rfl⟩ | ⟨f, hf, rfl, rfl⟩
    · exact ⟨⟨u, loc, .space⟩, by
        simp only [List.nil_append, Sec.spaceSymbols, List.mem_append, List.mem_map]
        exact .inl ⟨u, hu, rfl⟩, rfl, rfl⟩
    · exact ⟨⟨f.alias.getD (Ext.shortName f.name), loc, .function⟩, by
        simp only [List.nil_append, Sec.spaceSymbols, List.mem_append, List.mem_map]
        exact .inr ⟨f, hf, rfl⟩, rfl, rfl⟩
  | _ => simp [given] at hm

/-! ## The definitions of a plan -/

variable {s : Setting} {bs : List Ext.Block} {names : List Str} {r : NRel}

theorem given_group {d : Sec.Def} (hd : Sec.DefOk d) {n : Str} {b : Bool}
    (hm : (n, b) ∈ Whole.given (Sec.defLine d).detail) :
    ∃ x ∈ Sec.groupOf 0 d, x.name = n ∧ minor x.info = !b := by
  have := (Sec.defLine_ok hd).visit 0 {} (by simp)
  obtain ⟨x, hx, h⟩ := visitDefinition_given this hm
  exact ⟨x, by simpa using hx, h⟩

/-- The line of an extension space is one. -/
theorem spaceOf_line {b : Ext.Block} (hd : Sec.DefOk (.space b)) :
    (spaceOf (Sec.defLine (.space b)).detail).isSome = true := by
  have hl := Sec.defLine_ok hd
  have hv := hl.visit 0 {} (by simp)
  have hg : ∀ x ∈ Sec.groupOf 0 (.space b), x.info = .space ∨ x.info = .function := by
    intro x hx
    simp only [Sec.groupOf, Sec.spaceSymbols, List.mem_append, List.mem_map] at hx
    rcases hx with ⟨u, -, rfl⟩ | ⟨f, -, rfl⟩
    · exact .inl rfl
    · exact .inr rfl
  have hd := hl.isDef
  revert hv hd
  cases (Sec.defLine (.space b)).detail with
  | space t => intro _ _; rfl
  | schema id cs =>
    intro hv _
    simp only [visitDefinition] at hv
    obtain ⟨a, h1, h⟩ := Outcome.of_map hv
    have := hg ⟨id, 0, .schema⟩ (by
      have e := congrArg State.symbols h
      simp only [List.nil_append] at e
      rw [← e]
      simp)
    simp at this
  | source t =>
    intro hv _
    simp only [visitDefinition] at hv
    obtain ⟨a, h1, h⟩ := Outcome.of_map hv
    have e := congrArg State.symbols h
    simp only [List.nil_append] at e
    have hk : ∃ x ∈ a, ∃ k, x.info = .source k := by
      cases t with
      | localFiles id fs =>
        unfold Sec.addSource at h1
        obtain ⟨x, hx, -, hk⟩ := (addFiles_kept h1).1 ⟨id, 0, .source .files⟩ (by simp)
        rcases hk with hk | ⟨f, g, -, hk⟩
        · exact ⟨x, hx, _, hk⟩
        · simp at hk
      | namedTable id ss => cases h1; exact ⟨_, by simp; exact .inl rfl, _, rfl⟩
      | virtualTable id => cases h1; exact ⟨_, by simp; rfl, _, rfl⟩
      | extensionTable id => cases h1; exact ⟨_, by simp; rfl, _, rfl⟩
    obtain ⟨x, hx, k, hk⟩ := hk
    have := hg x (e ▸ hx)
    rw [hk] at this
    simp at this
  | pipelines ps => intro _ h; exact h.elim
  | relation t => intro _ h; exact h.elim
  | root ns => intro _ h; exact h.elim

theorem uri_not_brace {t : Str} : ¬ Ext.IsUri ('{' :: t) := by
  intro h
  unfold Ext.IsUri Lex.uriRule at h
  have h1 : Lex.pathLen false ('{' :: t) = 0 := by
    have : Lex.isFileChar '{' = false := by decide
    simp [Lex.pathLen, this]
  have h2 : Lex.schemeLen ('{' :: t) = 0 := by
    have : Lex.isLetter '{' = false := by decide
    simp [Lex.schemeLen, this]
  simp [h1, h2] at h

/-- A name by which something is looked up. -/
theorem Fine.key_kind (h : Fine s bs names r) {d : Sec.Def} (hd : d ∈ (planOf s bs names r).defs)
    {k : Str} (hk : k ∈ d.keys) : MadeUp k ∨ ∃ y ∈ subs r, k ∈ y.own.fileKeys := by
  rcases mem_defs hd with ⟨e, he, rfl⟩ | ⟨e, he, rfl⟩ | ⟨b, hb, rfl⟩
  · rw [Sec.Def.keys, List.mem_singleton] at hk
    exact .inl (hk ▸ h.schema_made he)
  · obtain ⟨y, hy, e3, e4⟩ := mem_sources he
    rcases source_keys hk with rfl | ⟨hk, -⟩
    · exact .inl (h.source_made he)
    · refine .inr ⟨y, hy, ?_⟩
      rw [Own.fileKeys, e4]
      obtain ⟨n', src'⟩ := e
      cases src' <;> simp only [Sec.Def.fileKeys, List.not_mem_nil] at hk
      exact hk
  · simp [Sec.Def.keys] at hk

theorem fileKeys_brace {o : Own} {k : Str} (hk : k ∈ o.fileKeys) : ∃ f, k = Sec.fileKey f := by
  unfold Own.fileKeys at hk
  split at hk
  · obtain ⟨f, -, rfl⟩ := List.mem_map.mp hk
    exact ⟨f, rfl⟩
  · simp at hk

/-- Another name is no name by which something is looked up. -/
theorem Fine.minor_kind (h : Fine s bs names r) {d : Sec.Def} (hd : d ∈ (planOf s bs names r).defs)
    {k : Str} (hk : k ∈ d.names) :
    k ∈ d.keys ∨ ¬ (MadeUp k ∨ ∃ y ∈ subs r, k ∈ y.own.fileKeys) := by
  have name : Ext.IsName k → ¬ MadeUp k → ¬ (MadeUp k ∨ ∃ y ∈ subs r, k ∈ y.own.fileKeys) := by
    rintro h1 h2 (h3 | ⟨y, -, h3⟩)
    · exact h2 h3
    · obtain ⟨f, rfl⟩ := fileKeys_brace h3
      exact fileKey_not_name f h1
  rcases mem_defs hd with ⟨e, he, rfl⟩ | ⟨e, he, rfl⟩ | ⟨b, hb, rfl⟩
  · rcases List.mem_cons.mp hk with hk | hk
    · exact .inl (by rw [Sec.Def.keys, hk]; simp)
    · obtain ⟨x, hx, h1, h2⟩ := h.schema_names he
      rw [h2] at hk
      refine .inr (name ?_ (h.columns x hx k hk))
      rw [Own.columns, h1] at hk
      exact (h.schemaFits hx h1).names k hk
  · obtain ⟨x, hx, e1, e2⟩ := mem_sources he
    obtain ⟨n, src⟩ := e
    cases src with
    | named ns =>
      rcases List.mem_cons.mp hk with hk | hk
      · exact .inl (by simp [Sec.Def.keys, hk])
      · have := h.tables x hx k (by rw [Own.tables, e2]; exact hk)
        refine .inr ?_
        rintro (h3 | ⟨y, hy, h3⟩)
        · exact this.1 h3
        · exact this.2.2 y hy h3
    | files fs => exact .inl hk
    | virtual => exact .inl hk
    | extension => exact .inl hk
  · simp only [Sec.Def.names, List.mem_append, Option.mem_toList, List.mem_map] at hk
    refine .inr ?_
    rcases hk with hk | ⟨f, hf, rfl⟩
    · rintro (h3 | ⟨y, -, h3⟩)
      · exact (h.uris b hb k hk).1 h3
      · obtain ⟨f, rfl⟩ := fileKeys_brace h3
        exact uri_not_brace ((h.blocks b hb).uri _ hk)
    · obtain ⟨g, hg, e, -⟩ := h.block_function hb hf
      exact name (e ▸ (h.functions g hg).1) (e ▸ (h.functions g hg).2.2.1)

/-- A name that is given. -/
theorem Fine.given_kind (h : Fine s bs names r) {d : Sec.Def} (hd : d ∈ (planOf s bs names r).defs)
    {n : Str} {b : Bool} (hm : (n, b) ∈ Whole.given (Sec.defLine d).detail) :
    n ∈ d.names ∧ (b = true → n ∈ d.keys ∨
      (spaceOf (Sec.defLine d).detail).isSome ∧ ∃ f ∈ s.functions.funs, n = f.symbol) ∧
      (b = false → ¬ MadeUp n) := by
  have hok := h.defs_ok d hd
  obtain ⟨x, hx, e1, e2⟩ := given_group hok hm
  have hn : n ∈ d.names := by
    rw [← Sec.groupOf_names 0 d, ← e1]
    exact List.mem_map.mpr ⟨x, hx, rfl⟩
  refine ⟨hn, ?_, ?_⟩
  · rintro rfl
    rcases mem_defs hd with ⟨e, he, rfl⟩ | ⟨e, he, rfl⟩ | ⟨b, hb, rfl⟩
    · simp only [Sec.groupOf, List.mem_cons, List.mem_map] at hx
      rcases hx with rfl | ⟨c, -, rfl⟩
      · exact .inl (by rw [Sec.Def.keys, ← e1]; simp)
      · simp [minor] at e2
    · obtain ⟨n', src⟩ := e
      cases src with
      | named ns =>
        simp only [Sec.groupOf, List.mem_cons, List.mem_map] at hx
        rcases hx with rfl | ⟨c, -, rfl⟩
        · exact .inl (by simp [Sec.Def.keys, ← e1])
        · simp [minor] at e2
      | files fs => exact .inl hn
      | virtual => exact .inl hn
      | extension => exact .inl hn
    · refine .inr ⟨spaceOf_line hok, ?_⟩
      simp only [Sec.groupOf, Sec.spaceSymbols, Ext.treeOf, List.mem_append, List.mem_map] at hx
      rcases hx with ⟨u, -, rfl⟩ | ⟨f, ⟨g, hg, rfl⟩, rfl⟩
      · simp [minor] at e2
      · obtain ⟨f', hf', e, -⟩ := h.block_function hb hg
        exact ⟨f', hf', by rw [← e1, e]; rfl⟩
  · rintro rfl
    rcases mem_defs hd with ⟨e, he, rfl⟩ | ⟨e, he, rfl⟩ | ⟨b, hb, rfl⟩
    · simp only [Sec.groupOf, List.mem_cons] at hx
      rcases hx with rfl | hx
      · simp [minor] at e2
      · obtain ⟨y, hy, -, h2⟩ := h.schema_names he
        have h3 := Sec.groupOf_names 0 (.schema e.1 e.2)
        simp only [Sec.groupOf, Sec.Def.names, List.map_cons, List.cons.injEq, true_and] at h3
        refine h.columns y hy n ?_
        rw [← h2, ← h3, ← e1]
        exact List.mem_map.mpr ⟨x, hx, rfl⟩
    · obtain ⟨y, hy, h1, h2⟩ := mem_sources he
      obtain ⟨n', src⟩ := e
      cases src with
      | named ns =>
        simp only [Sec.groupOf, List.mem_cons, List.mem_map] at hx
        rcases hx with rfl | ⟨c, hc, rfl⟩
        · simp [minor] at e2
        · refine (h.tables y hy n ?_).1
          rw [Own.tables, h2, ← e1]
          exact hc
      | files fs =>
        simp only [Sec.groupOf, List.mem_cons, List.mem_map] at hx
        rcases hx with rfl | ⟨c, hc, rfl⟩ <;> simp [minor] at e2
      | virtual =>
        simp only [Sec.groupOf, List.mem_singleton] at hx
        subst hx
        simp [minor] at e2
      | extension =>
        simp only [Sec.groupOf, List.mem_singleton] at hx
        subst hx
        simp [minor] at e2
    · simp only [Sec.groupOf, Sec.spaceSymbols, Ext.treeOf, List.mem_append, List.mem_map] at hx
      rcases hx with ⟨u, hu, rfl⟩ | ⟨f, -, rfl⟩
      · rw [← e1]
        exact (h.uris b hb u (Option.mem_toList.mp hu)).1
      · simp [minor] at e2

theorem pairwise_fresh : ∀ {ds : List Sec.Def} {seen : List Str}, Sec.Fresh seen ds →
    (∀ d ∈ ds, ∀ k ∈ d.keys, k ∉ seen) ∧ ds.Pairwise (fun d d' => ∀ k ∈ d'.keys, k ∉ d.names)
  | [], _, _ => ⟨by simp, .nil⟩
  | d :: ds, seen, h => by
    obtain ⟨h1, h2⟩ := h
    obtain ⟨h3, h4⟩ := pairwise_fresh h2
    refine ⟨fun d' hd' k hk => ?_, ?_⟩
    · rcases List.mem_cons.mp hd' with rfl | hd'
      · exact h1 k hk
      · exact fun hs => h3 d' hd' k hk (List.mem_append_left _ hs)
    · exact .cons (fun d' hd' k hk hs => h3 d' hd' k hk (List.mem_append_right _ hs)) h4

/-- A function and another definition that is no extension space have no name in common. -/
theorem Fine.function_apart (h : Fine s bs names r) {d : Sec.Def}
    (hd : d ∈ (planOf s bs names r).defs) {f : Ext.FunSym} (hf : f ∈ s.functions.funs)
    (hk : f.symbol ∈ d.names) : (spaceOf (Sec.defLine d).detail).isSome := by
  have hf := h.functions f hf
  have hok := h.defs_ok d hd
  rcases mem_defs hd with ⟨e, he, rfl⟩ | ⟨e, he, rfl⟩ | ⟨b, hb, rfl⟩
  · exfalso
    rcases List.mem_cons.mp hk with hk | hk
    · exact hf.2.2.1 (hk ▸ h.schema_made he)
    · obtain ⟨x, hx, h1, h2⟩ := h.schema_names he
      rw [h2] at hk
      exact (hf.2.2.2.1 x hx).1 hk
  · exfalso
    obtain ⟨x, hx, e1, e2⟩ := mem_sources he
    rcases h.minor_kind hd hk with hk | hn
    · rcases source_keys hk with hk | ⟨-, g, hk⟩
      · exact hf.2.2.1 (hk ▸ h.source_made he)
      · exact fileKey_not_name g (hk ▸ hf.1)
    · obtain ⟨n, src⟩ := e
      cases src with
      | named ns =>
        rcases List.mem_cons.mp hk with hk | hk
        · exact hf.2.2.1 (hk ▸ h.source_made he)
        · exact (hf.2.2.2.1 x hx).2 (by rw [Own.tables, e2]; exact hk)
      | files fs => exact hn (h.key_kind hd hk)
      | virtual => exact hn (h.key_kind hd hk)
      | extension => exact hn (h.key_kind hd hk)
  · exact spaceOf_line hok

theorem Fine.clear (h : Fine s bs names r) {bases : List Str} (hb : ∀ n ∈ bases, MadeUp n) :
    ((planOf s bs names r).defs.map fun d => (Sec.defLine d).detail).Pairwise (Clear bases) := by
  rw [List.pairwise_map]
  refine List.Pairwise.imp_of_mem ?_ (pairwise_fresh h.fresh).2
  intro d d' hd hd' hf
  by_cases hs : (spaceOf (Sec.defLine d).detail).isSome ∧ (spaceOf (Sec.defLine d').detail).isSome
  · exact .inl hs
  refine .inr fun n a b hn hn' => ?_
  obtain ⟨n1, n2, n3⟩ := h.given_kind hd hn
  obtain ⟨m1, m2, m3⟩ := h.given_kind hd' hn'
  have ha : a = false := by
    cases a with
    | false => rfl
    | true =>
      exfalso
      rcases n2 rfl with hk | ⟨hk, f, hf', rfl⟩
      · rcases h.minor_kind hd' m1 with hk' | hk'
        · exact hf n hk' n1
        · exact hk' (h.key_kind hd hk)
      · exact hs ⟨hk, h.function_apart hd' hf' m1⟩
  have hb' : b = false := by
    cases b with
    | false => rfl
    | true =>
      exfalso
      rcases m2 rfl with hk | ⟨hk, f, hf', rfl⟩
      · exact hf n hk n1
      · exact hs ⟨h.function_apart hd hf' n1, hk⟩
  exact ⟨ha, hb', fun hm => n3 ha (hb n hm)⟩

theorem baseOf_eq : baseOf = Rel.detailBase := by
  funext d; cases d <;> rfl

theorem Fine.base_made (h : Fine s bs names r) {x : NRel} (hx : x ∈ subs r) {n : Str}
    (hn : n ∈ (treeOf s bs r x).details.filterMap baseOf) : MadeUp n := by
  have hb := (h.line0 hx).base
  unfold treeOf at hn
  rw [baseOf_eq, hb] at hn
  have ht := (h.good x hx).tables
  unfold TablesFit at ht
  simp only [relOf, newRel, NRel.filled, Own.fill] at hn
  cases e : x.own.body with
  | read a b f g p =>
    rw [e] at ht hn
    obtain ⟨⟨t, e2, -⟩, -⟩ := ht
    have : x.names.schema = some n := by
      simpa [fillBody, relabelBody, withNames, renumberBody, Rel.Body.names] using hn
    exact h.schema_made (schemas_mem hx this e2)
  | _ =>
    rw [e] at hn
    simp [fillBody, relabelBody, withNames, renumberBody, Rel.Body.names] at hn

theorem Fine.relations_plan (h : Fine s bs names r) :
    (Sec.planDetails (planOf s bs names r)).filterMap relationOf = (subs r).map (treeOf s bs r) := by
  rw [relationOf_eq, ← trees_plan (names := names)]
  exact Sec.relationTrees_plan h.parts

theorem firstDetails_given {p : Sec.Plan} : ∀ d ∈ Sec.firstDetails p, given d = [] := by
  intro d hd
  unfold Sec.firstDetails at hd
  simp only [List.mem_append] at hd
  rcases hd with hd | hd | hd
  · obtain ⟨ps, rfl⟩ := Sec.pipelineLines_detail d hd
    rfl
  · obtain ⟨x, -, rfl⟩ := List.mem_map.mp hd
    rfl
  · obtain ⟨x, -, rfl⟩ := List.mem_map.mp hd
    rfl

/-- A text that is printed is tidy. -/
theorem Fine.tidy (h : Fine s bs names r) : Tidy (Sec.planDetails (planOf s bs names r)) where
  names := by
    have hc := h.clear (bases := basesOf (Sec.planDetails (planOf s bs names r))) (by
      intro n hn
      unfold basesOf at hn
      rw [h.relations_plan] at hn
      obtain ⟨t, ht, hn⟩ := List.mem_flatMap.mp hn
      obtain ⟨x, hx, rfl⟩ := List.mem_map.mp ht
      exact h.base_made hx hn)
    generalize basesOf (Sec.planDetails (planOf s bs names r)) = bases at hc ⊢
    unfold Sec.planDetails
    rw [List.pairwise_append]
    refine ⟨?_, hc, fun d hd e _ => .inr ?_⟩
    · refine List.pairwise_of_forall_mem_list fun d hd e _ => .inr ?_
      intro n a b hn
      rw [firstDetails_given d hd] at hn
      simp at hn
    · intro n a b hn
      rw [firstDetails_given d hd] at hn
      simp at hn
  queries := by
    rw [h.relations_plan, trees_ids (names := names) h]
    intro t ht n hn
    obtain ⟨x, hx, rfl⟩ := List.mem_map.mp ht
    rw [h.refs hx] at hn
    obtain ⟨q, hq, rfl⟩ := List.mem_map.mp hn
    exact List.mem_map.mpr ⟨q, queries_subs hx hq, rfl⟩

end Verif.Whole
