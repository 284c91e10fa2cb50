import Verif.Lemmas.FormedTypes

/-! # The parser builds the types of the grammar -/

namespace Verif.Parse

open Verif Lex Tree TyPb

/-- The result, if there is one, has the property, and the tokens left over are good. -/
def Keep {α : Type} (P : α → Prop) (o : Option (α × List Token)) : Prop :=
  ∀ x, o = some x → P x.1 ∧ GoodL x.2

/-- Nothing is said of the result. -/
def Any {α : Type} : α → Prop := fun _ => True

theorem keep_none {α : Type} {P : α → Prop} : Keep P none := fun _ h => by simp at h

theorem keep_some {α : Type} {P : α → Prop} {x : α × List Token} (h : P x.1) (g : GoodL x.2) :
    Keep P (some x) := fun y e => by simp only [Option.some.injEq] at e; subst e; exact ⟨h, g⟩

theorem keep_bind {α β : Type} {P : α → Prop} {Q : β → Prop} {o : Option (α × List Token)}
    {f : α × List Token → Option (β × List Token)} (h : Keep P o)
    (hf : ∀ x, P x.1 → GoodL x.2 → Keep Q (f x)) : Keep Q (o.bind f) := by
  cases o with
  | none => exact keep_none
  | some x => exact hf x (h x rfl).1 (h x rfl).2

theorem keep_map {α β : Type} {P : α → Prop} {Q : β → Prop} {o : Option (α × List Token)}
    {f : α × List Token → β × List Token} (h : Keep P o)
    (hf : ∀ x, P x.1 → GoodL x.2 → Q (f x).1 ∧ GoodL (f x).2) : Keep Q (o.map f) := by
  cases o with
  | none => exact keep_none
  | some x =>
    have := hf x (h x rfl).1 (h x rfl).2
    exact keep_some this.1 this.2

theorem keep_any {α : Type} {P : α → Prop} {o : Option (α × List Token)} (h : Keep P o) :
    Keep Any o := fun x e => ⟨trivial, (h x e).2⟩

theorem keep_or {α : Type} {P : α → Prop} {o q : Option (α × List Token)} (h : Keep P o)
    (hq : Keep P q) : Keep P (o.or q) := by
  cases o with
  | none => exact hq
  | some x => exact h

theorem good_tail {ts : List Token} (h : GoodL ts) : GoodL ts.tail :=
  fun t ht => h t (List.mem_of_mem_tail ht)

theorem good_cons {t : Token} {ts : List Token} (h : GoodL (t :: ts)) : GoodL ts :=
  good_tail h

/-- The tokens after an expected one. -/
theorem expect_bind {β : Type} {Q : β → Prop} {k : Tk} {ts : List Token}
    {f : List Token → Option (β × List Token)} (h : GoodL ts) (hf : ∀ u, GoodL u → Keep Q (f u)) :
    Keep Q ((expect k ts).bind f) := by
  cases ts with
  | nil => exact keep_none
  | cons t ts =>
    simp only [expect]
    split
    · exact hf ts (good_cons h)
    · exact keep_none

theorem expect_map {β : Type} {Q : β → Prop} {k : Tk} {ts : List Token}
    {f : List Token → β × List Token} (h : GoodL ts)
    (hf : ∀ u, GoodL u → Q (f u).1 ∧ GoodL (f u).2) : Keep Q ((expect k ts).map f) := by
  cases ts with
  | nil => exact keep_none
  | cons t ts =>
    simp only [expect]
    split
    · exact keep_some (hf ts (good_cons h)).1 (hf ts (good_cons h)).2
    · exact keep_none

/-- An identifier: not a word for a type with parts. -/
def IdOk (s : Str) : Prop := IsIdText s ∧ s.map toLower ∉ typeKeywords

theorem underscore_not_keyword {s : Str} (h : '_' ∈ s) : s.map toLower ∉ typeKeywords := by
  intro hm
  have h1 : '_' ∈ s.map toLower := List.mem_map.mpr ⟨'_', h, by decide⟩
  simp only [typeKeywords, List.mem_cons, List.not_mem_nil, or_false] at hm
  rcases hm with e | e | e <;> rw [e] at h1 <;> exact absurd h1 (by decide)

theorem idTail_keep : ∀ (ts : List Token) (acc pend : Str) (back : List Token),
    IdOk acc → (∀ c ∈ pend, c = '_') → GoodL back → GoodL ts →
    IdOk (idTail acc pend back ts).1 ∧ GoodL (idTail acc pend back ts).2
  | [], acc, pend, back, ha, _, hb, _ => ⟨ha, hb⟩
  | t :: ts, acc, pend, back, ha, hp, hb, ht => by
    unfold idTail
    split
    · rename_i hk
      have hu := (ht t (by simp)).underscore hk
      refine idTail_keep ts _ _ _ ha (fun c hc => ?_) hb (good_cons ht)
      rcases List.mem_append.mp hc with hc | hc
      · exact hp c hc
      · rw [hu] at hc; simpa using hc
    · split
      · rename_i hk
        simp only [Bool.and_eq_true, Bool.not_eq_true', List.isEmpty_eq_false_iff] at hk
        have hi := (ht t (by simp)).id hk.1
        have hmem : '_' ∈ pend := by
          cases hpe : pend with
          | nil => exact absurd hpe hk.2
          | cons a l =>
            have := hp a (by simp [hpe])
            simp [this]
        refine idTail_keep ts _ _ _ ⟨⟨?_, fun c hc => ?_⟩, underscore_not_keyword ?_⟩ (by simp)
          (good_cons ht) (good_cons ht)
        · have := ha.1.1
          intro e
          simp only [List.append_eq_nil_iff] at e
          exact this e.1.1
        · rcases List.mem_append.mp hc with hc | hc
          · rcases List.mem_append.mp hc with hc | hc
            · exact ha.1.2 c hc
            · exact .inr (.inr (.inr (hp c hc)))
          · exact hi.1.2 c hc
        · simp [hmem]
      · exact ⟨ha, hb⟩

theorem parseId_keep {ts : List Token} (h : GoodL ts) : Keep IdOk (parseId ts) := by
  cases ts with
  | nil => exact keep_none
  | cons t ts =>
    simp only [parseId]
    split
    · rename_i hk
      have := idTail_keep ts t.text [] ts ((h t (by simp)).id hk) (by simp) (good_cons h)
        (good_cons h)
      exact keep_some this.1 this.2
    · exact keep_none

theorem question_good {ts : List Token} (h : GoodL ts) : GoodL (parseQuestion ts).2 := by
  unfold parseQuestion
  split
  · exact good_tail h
  · exact h

theorem comma_good {ts : List Token} (h : GoodL ts) : GoodL (parseComma ts).2 := by
  unfold parseComma
  split
  · exact good_tail h
  · exact h

theorem parseNumbers_keep : ∀ (n : Nat) (ts : List Token), ts.length ≤ n → GoodL ts →
    Keep (fun l => ∀ x ∈ l, IsNumberText x) (parseNumbers ts)
  | _, [], _, _ => by unfold parseNumbers; exact keep_none
  | _, [t], _, _ => by unfold parseNumbers; exact keep_none
  | 0, a :: b :: ts, hn, _ => by simp at hn
  | n + 1, a :: b :: ts, hn, h => by
    have hts : GoodL ts := good_cons (good_cons h)
    unfold parseNumbers
    split
    · rename_i hk
      have ha := (h a (by simp)).number hk
      split
      · refine keep_map (parseNumbers_keep n ts (by simp at hn; omega) hts) fun x hx hg => ⟨?_, hg⟩
        intro y hy
        rcases List.mem_cons.mp hy with rfl | hy
        · exact ha
        · exact hx y hy
      · split
        · exact keep_some (by simpa using ha) hts
        · exact keep_none
    · exact keep_none

theorem parseBasic_keep {ts : List Token} (h : GoodL ts) : Keep WellFormed (parseBasic ts) := by
  unfold parseBasic
  refine keep_bind (parseId_keep h) fun i hi hg => ?_
  have hq := question_good hg
  simp only
  split
  · refine keep_map (parseNumbers_keep _ _ (Nat.le_refl _) (good_tail hq)) fun x hx hgx => ⟨?_, hgx⟩
    simp only [WellFormed]
    exact ⟨hi.1, hi.2, hx⟩
  · refine keep_some ?_ hq
    simp only [WellFormed]
    exact ⟨hi.1, hi.2, by simp⟩

theorem parseOptBasic_keep {ts : List Token} (h : GoodL ts) :
    Keep WellFormed (parseOptBasic ts) := by
  unfold parseOptBasic
  split
  · split
    · exact parseBasic_keep h
    · exact keep_some (by simp [WellFormed]) h
  · exact keep_some (by simp [WellFormed]) h

mutual
theorem parseType_keep : ∀ (f : Nat) (ts : List Token), GoodL ts →
    Keep WellFormed (parseType f ts)
  | 0, _, _ => by unfold parseType; exact keep_none
  | f + 1, [], _ => by unfold parseType; exact keep_none
  | f + 1, t :: ts, h => by
    have hq := question_good (good_cons h)
    unfold parseType
    split
    · rename_i hk
      refine expect_bind hq fun u hu => keep_bind (parseOptType_keep f u hu) fun e he hg =>
        expect_map hg fun v hv => ⟨?_, hv⟩
      simp only [WellFormed]
      exact ⟨(h t (by simp)).list hk, he⟩
    · split
      · rename_i hk
        refine expect_bind hq fun u hu => keep_bind (parseOptBasic_keep hu) fun k hkk hg =>
          keep_bind (parseOptType_keep f _ (comma_good hg)) fun v hv hgv =>
            expect_map hgv fun w hw => ⟨?_, hw⟩
        simp only [WellFormed]
        exact ⟨(h t (by simp)).map hk, hkk, hv⟩
      · split
        · rename_i hk
          refine expect_bind hq fun u hu => keep_bind (parseOptType_keep f u hu) fun e he hg =>
            keep_bind (parseMoreTypes_keep f _ hg) fun es hes hgs =>
              expect_map hgs fun v hv => ⟨?_, hv⟩
          simp only [WellFormed]
          exact ⟨(h t (by simp)).struct hk, by simp, he, hes⟩
        · exact parseBasic_keep h
theorem parseOptType_keep : ∀ (f : Nat) (ts : List Token), GoodL ts →
    Keep WellFormed (parseOptType f ts)
  | 0, _, _ => by unfold parseOptType; exact keep_none
  | f + 1, ts, h => by
    unfold parseOptType
    split
    · exact parseType_keep f ts h
    · exact keep_some (by simp [WellFormed]) h
theorem parseMoreTypes_keep : ∀ (f : Nat) (ts : List Token), GoodL ts →
    Keep AllWellFormed (parseMoreTypes f ts)
  | 0, _, _ => by unfold parseMoreTypes; exact keep_none
  | f + 1, ts, h => by
    unfold parseMoreTypes
    split
    · exact keep_bind (parseType_keep f _ (good_tail h)) fun e he hg =>
        keep_map (parseMoreTypes_keep f _ hg) fun es hes hgs => ⟨⟨he, hes⟩, hgs⟩
    · exact keep_some (by simp [AllWellFormed]) h
end

theorem suffixBasic_keep {ts : List Token} (h : GoodL ts) :
    Keep Literal.Formed (parseSuffixBasic ts) := by
  unfold parseSuffixBasic
  split
  · exact keep_map (parseBasic_keep (good_tail h)) fun x hx hg => ⟨hx, hg⟩
  · exact keep_some trivial h

theorem suffixType_keep (f : Nat) {ts : List Token} (h : GoodL ts) :
    Keep Literal.Formed (parseSuffixType f ts) := by
  unfold parseSuffixType
  split
  · exact keep_map (parseType_keep f _ (good_tail h)) fun x hx hg => ⟨hx, hg⟩
  · exact keep_some trivial h

open Literal in
mutual
theorem parseConst_keep : ∀ (f : Nat) (ts : List Token), GoodL ts →
    Keep FormedConst (parseConst f ts)
  | 0, _, _ => by unfold parseConst; exact keep_none
  | f + 1, [], _ => by unfold parseConst; exact keep_none
  | f + 1, t :: ts, h => by
    have ht := good_cons h
    unfold parseConst
    split
    · exact keep_map (suffixBasic_keep ht) fun x hx hg => ⟨by simpa [FormedConst] using hx, hg⟩
    · exact keep_map (suffixBasic_keep ht) fun x hx hg => ⟨by simpa [FormedConst] using hx, hg⟩
    · exact keep_map (suffixBasic_keep ht) fun x hx hg => ⟨by simpa [FormedConst] using hx, hg⟩
    · exact keep_map (suffixBasic_keep ht) fun x hx hg => ⟨by simpa [FormedConst] using hx, hg⟩
    · exact keep_map (suffixType_keep f ht) fun x hx hg => ⟨by simpa [FormedConst] using hx, hg⟩
    · split
      · exact keep_map (suffixType_keep f (good_tail ht)) fun x hx hg =>
          ⟨by simpa [FormedConst, FormedConsts] using hx, hg⟩
      · refine keep_bind (parseConst_keep f ts ht) fun a ha hg => ?_
        split
        · refine keep_bind (parseConst_keep f _ (good_tail hg)) fun b hb hgb =>
            keep_bind (parseMorePairs_keep f _ hgb) fun m hm hgm => expect_bind hgm fun u hu =>
              keep_map (suffixType_keep f hu) fun x hx hgx => ⟨?_, hgx⟩
          simp only [FormedConst, FormedConsts]
          exact ⟨hx, ⟨ha, hm.1⟩, hb, hm.2⟩
        · refine keep_bind (parseMoreConsts_keep f _ hg) fun m hm hgm => expect_bind hgm fun u hu =>
            keep_map (suffixType_keep f hu) fun x hx hgx => ⟨?_, hgx⟩
          simp only [FormedConst, FormedConsts]
          exact ⟨hx, ha, hm⟩
    · exact keep_none
theorem parseMoreConsts_keep : ∀ (f : Nat) (ts : List Token), GoodL ts →
    Keep FormedConsts (parseMoreConsts f ts)
  | 0, _, _ => by unfold parseMoreConsts; exact keep_none
  | f + 1, ts, h => by
    unfold parseMoreConsts
    split
    · exact keep_bind (parseConst_keep f _ (good_tail h)) fun a ha hg =>
        keep_map (parseMoreConsts_keep f _ hg) fun m hm hgm =>
          ⟨by simpa [FormedConsts] using ⟨ha, hm⟩, hgm⟩
    · exact keep_some (by simp [FormedConsts]) h
theorem parseMorePairs_keep : ∀ (f : Nat) (ts : List Token), GoodL ts →
    Keep (fun p => FormedConsts p.1 ∧ FormedConsts p.2) (parseMorePairs f ts)
  | 0, _, _ => by unfold parseMorePairs; exact keep_none
  | f + 1, ts, h => by
    unfold parseMorePairs
    split
    · exact keep_bind (parseConst_keep f _ (good_tail h)) fun a ha hg => expect_bind hg fun u hu =>
        keep_bind (parseConst_keep f _ hu) fun b hb hgb =>
          keep_map (parseMorePairs_keep f _ hgb) fun m hm hgm =>
            ⟨by simpa [FormedConsts] using ⟨⟨ha, hm.1⟩, hb, hm.2⟩, hgm⟩
    · exact keep_some (by simp [FormedConsts]) h
end

theorem parseRef_keep {ts : List Token} (h : GoodL ts) : Keep Any (parseRef ts) := by
  unfold parseRef
  refine keep_bind (parseId_keep h) fun i _ hg => ?_
  split
  · rename_i a b r hr
    rw [hr] at hg
    split
    · exact keep_bind (parseId_keep (good_cons (good_cons hg))) fun j _ hj =>
        expect_map hj fun u hu => ⟨trivial, hu⟩
    · exact keep_some trivial (by simpa [hr] using hg)
  · exact keep_some trivial hg

theorem parseSubquery_good {ts : List Token} (h : GoodL ts) {r : Str × RelRef × List Token}
    (e : parseSubquery ts = some r) : GoodL r.2.2 := by
  cases ts with
  | nil => simp [parseSubquery] at e
  | cons t ts =>
    simp only [parseSubquery] at e
    split at e
    · cases hp : parseRef ts with
      | none => rw [hp] at e; simp at e
      | some x =>
        rw [hp] at e
        simp only [Option.map_some, Option.some.injEq] at e
        subst e
        exact (parseRef_keep (good_cons h) x hp).2
    · simp at e

theorem parseInSubquery_good {ts : List Token} (h : GoodL ts) {r : Str × RelRef × List Token}
    (e : parseInSubquery ts = some r) : GoodL r.2.2 := by
  cases ts with
  | nil => simp [parseInSubquery] at e
  | cons t ts =>
    simp only [parseInSubquery] at e
    split at e
    · cases hp : parseSubquery ts with
      | none => rw [hp] at e; simp at e
      | some x =>
        rw [hp] at e
        simp only [Option.map_some, Option.some.injEq] at e
        subst e
        exact parseSubquery_good (good_cons h) (r := x) hp
    · simp at e

theorem subquery_map {β : Type} {Q : β → Prop} {o : Option (Str × RelRef × List Token)}
    {f : Str × RelRef × List Token → β × List Token} (h : ∀ r, o = some r → GoodL r.2.2)
    (hf : ∀ r, GoodL r.2.2 → Q (f r).1 ∧ GoodL (f r).2) : Keep Q (o.map f) := by
  cases o with
  | none => exact keep_none
  | some r => exact keep_some (hf r (h r rfl)).1 (hf r (h r rfl)).2

theorem parseColumn_keep {id : Str} {ts : List Token} (h : GoodL ts) :
    Keep Expr.Formed (parseColumn id ts) := by
  unfold parseColumn
  split
  · exact keep_map (parseId_keep (good_tail h)) fun x _ hg => ⟨by simp [Expr.Formed], hg⟩
  · exact keep_some (by simp [Expr.Formed]) h

theorem parseArrow_keep (f : Nat) {ts : List Token} (h : GoodL ts) :
    Keep Literal.Formed (parseArrow f ts) := by
  unfold parseArrow
  split
  · exact keep_map (parseType_keep f _ (good_tail h)) fun x hx hg => ⟨hx, hg⟩
  · exact keep_some trivial h

theorem constExpr_keep (f : Nat) {ts : List Token} (h : GoodL ts) :
    Keep Expr.Formed ((parseConst f ts).map fun c => (.const c.1, c.2)) :=
  keep_map (parseConst_keep f ts h) fun x hx hg => ⟨by simpa [Expr.Formed] using hx, hg⟩

open Expr in
mutual
theorem parseExpr_keep : ∀ (f : Nat) (ts : List Token), GoodL ts →
    Keep Expr.Formed (parseExpr f ts)
  | 0, _, _ => by unfold parseExpr; exact keep_none
  | f + 1, ts, h => by
    unfold parseExpr
    exact keep_bind (parsePrimary_keep f ts h) fun e he hg => parsePostfix_keep f e.1 e.2 he hg
theorem parsePrimary_keep : ∀ (f : Nat) (ts : List Token), GoodL ts →
    Keep Expr.Formed (parsePrimary f ts)
  | 0, _, _ => by unfold parsePrimary; exact keep_none
  | f + 1, [], _ => by unfold parsePrimary; exact keep_none
  | f + 1, t :: ts, h => by
    have ht := good_cons h
    unfold parsePrimary
    split
    · exact subquery_map (fun r => parseSubquery_good h) fun r hr => ⟨by simp [Expr.Formed], hr⟩
    · exact subquery_map (fun r => parseInSubquery_good ht) fun r hr => ⟨by simp [Expr.Formed], hr⟩
    · exact subquery_map (fun r => parseInSubquery_good ht) fun r hr => ⟨by simp [Expr.Formed], hr⟩
    · exact keep_bind (parseExpr_keep f ts ht) fun e he hg =>
        keep_bind (parseMoreExprs_keep f _ hg) fun m hm hgm => expect_bind hgm fun u hu =>
          subquery_map (fun r => parseInSubquery_good hu) fun r hr =>
            ⟨by simpa [Expr.Formed, FormedL] using ⟨he, hm⟩, hr⟩
    · exact constExpr_keep f h
    · exact constExpr_keep f h
    · exact constExpr_keep f h
    · exact constExpr_keep f h
    · exact constExpr_keep f h
    · refine keep_bind (parseId_keep h) fun i _ hg => ?_
      split
      · exact keep_bind (parseArgs_keep f _ (good_tail hg)) fun a ha hga =>
          keep_map (parseArrow_keep f hga) fun r hr hgr =>
            ⟨by simpa [Expr.Formed] using ⟨ha, hr⟩, hgr⟩
      · split
        · exact parseColumn_keep hg
        · split
          · exact constExpr_keep f h
          · exact parseColumn_keep hg
theorem parsePostfix_keep : ∀ (f : Nat) (e : ExprTree) (ts : List Token), Expr.Formed e →
    GoodL ts → Keep Expr.Formed (parsePostfix f e ts)
  | 0, _, _, _, _ => by unfold parsePostfix; exact keep_none
  | f + 1, e, ts, he, h => by
    unfold parsePostfix
    split
    · rename_i a rest
      have hr := good_cons h
      split
      · exact keep_bind (parseType_keep f _ hr) fun r hr' hg =>
          parsePostfix_keep f _ _ (by simpa [Expr.Formed] using ⟨he, hr'⟩) hg
      · split
        · split
          · rename_i b rest'
            split
            · cases hp : parseSubquery rest' with
              | none => exact keep_none
              | some r =>
                exact parsePostfix_keep f _ _ (by simpa [Expr.Formed] using he)
                  (parseSubquery_good (good_cons hr) hp)
            · exact keep_some he h
          · exact keep_some he h
        · exact keep_some he h
    · exact keep_some he h
theorem parseArgs_keep : ∀ (f : Nat) (ts : List Token), GoodL ts →
    Keep (fun p => FormedL p.1) (parseArgs f ts)
  | 0, _, _ => by unfold parseArgs; exact keep_none
  | f + 1, ts, h => by
    unfold parseArgs
    split
    · exact keep_some (by simp [FormedL]) (good_tail h)
    · exact keep_bind (parseExpr_keep f ts h) fun e he hg =>
        keep_map (parseArgs_keep f _ (comma_good hg)) fun m hm hgm =>
          ⟨by simpa [FormedL] using ⟨he, hm⟩, hgm⟩
theorem parseMoreExprs_keep : ∀ (f : Nat) (ts : List Token), GoodL ts →
    Keep FormedL (parseMoreExprs f ts)
  | 0, _, _ => by unfold parseMoreExprs; exact keep_none
  | f + 1, ts, h => by
    unfold parseMoreExprs
    split
    · exact keep_bind (parseExpr_keep f _ (good_tail h)) fun e he hg =>
        keep_map (parseMoreExprs_keep f _ hg) fun m hm hgm =>
          ⟨by simpa [FormedL] using ⟨he, hm⟩, hgm⟩
    · exact keep_some (by simp [FormedL]) h
end

theorem exprOf_keep {ts : List Token} (h : GoodL ts) : Keep Expr.Formed (exprOf ts) :=
  parseExpr_keep _ ts h

end Verif.Parse

namespace Verif.Rel

open Verif Lex Tree Parse

theorem semi_keep {α : Type} {P : α → Prop} {r : Option (α × List Token)} (h : Keep P r) :
    Keep P (semi r) :=
  keep_bind h fun _ hx hg => expect_map hg fun _ hu => ⟨hx, hu⟩

theorem parseOptId_keep {k : Tk} {ts : List Token} (h : GoodL ts) : Keep Any (parseOptId k ts) := by
  unfold parseOptId
  split
  · exact keep_map (parseId_keep (good_tail h)) fun _ _ hg => ⟨trivial, hg⟩
  · exact keep_some trivial h

theorem parseSort_keep {ts : List Token} (h : GoodL ts) :
    Keep (fun p => Expr.Formed p.1) (parseSort ts) :=
  keep_bind (exprOf_keep h) fun _ he hg => keep_map (parseOptId_keep hg) fun _ _ hb => ⟨he, hb⟩

theorem parseIds_keep {ts : List Token} (h : GoodL ts) : Keep Any (parseIds ts) :=
  keep_bind (parseOptId_keep h) fun _ _ hg =>
    keep_map (parseOptId_keep hg) fun _ _ hb => ⟨trivial, hb⟩

theorem parseMeasureDetail_keep {ts : List Token} (h : GoodL ts) :
    Keep FormedMeasure (parseMeasureDetail ts) := by
  cases ts with
  | nil => exact keep_none
  | cons t ts =>
    have ht := good_cons h
    simp only [parseMeasureDetail]
    split
    · exact semi_keep (keep_bind (exprOf_keep ht) fun e he hg =>
        keep_bind (parseArrow_keep _ hg) fun a ha hga =>
          keep_map (parseIds_keep hga) fun i _ hi => ⟨⟨he, ha⟩, hi⟩)
    · exact semi_keep (keep_map (exprOf_keep ht) fun e he hg => ⟨he, hg⟩)
    · exact semi_keep (keep_map (parseId_keep ht) fun _ _ hg => ⟨trivial, hg⟩)
    · exact semi_keep (keep_map (parseSort_keep ht) fun e he hg => ⟨he, hg⟩)
    · exact keep_none

theorem parseUntilBrace_keep {α : Type} {P : α → Prop} {p : List Token → Option (α × List Token)}
    (hp : ∀ ts, GoodL ts → Keep P (p ts)) : ∀ (n : Nat) (ts : List Token), GoodL ts →
    Keep (fun l => ∀ x ∈ l, P x) (parseUntilBrace p n ts)
  | 0, _, _ => keep_none
  | n + 1, ts, h => by
    simp only [parseUntilBrace]
    split
    · exact keep_some (by simp) (good_tail h)
    · refine keep_bind (hp ts h) fun d hd hg =>
        keep_map (parseUntilBrace_keep hp n _ hg) fun r hr hgr => ⟨?_, hgr⟩
      intro x hx
      rcases List.mem_cons.mp hx with rfl | hx
      · exact hd
      · exact hr x hx

theorem parseKeywordDetail_keep {ts : List Token} (h : GoodL ts) :
    Keep FormedDetail (parseKeywordDetail ts) := by
  cases ts with
  | nil => exact keep_none
  | cons t ts =>
    have ht := good_cons h
    have hid : ∀ (f : Str → Detail), (∀ s, FormedDetail (f s)) →
        Keep FormedDetail ((parseId ts).map fun i => (f i.1, i.2)) :=
      fun f hf => keep_map (parseId_keep ht) fun _ _ hg => ⟨hf _, hg⟩
    have hex : ∀ (f : ExprTree → Detail), (∀ s, Expr.Formed s → FormedDetail (f s)) →
        Keep FormedDetail ((exprOf ts).map fun i => (f i.1, i.2)) :=
      fun f hf => keep_map (exprOf_keep ht) fun _ he hg => ⟨hf _ he, hg⟩
    simp only [parseKeywordDetail]
    split
    · exact semi_keep (keep_some trivial ht)
    · exact semi_keep (hid _ fun _ => trivial)
    · exact semi_keep (hex _ fun _ he => he)
    · exact semi_keep (keep_bind (exprOf_keep ht) fun e he hg =>
        keep_map (parseOptId_keep hg) fun _ _ hn => ⟨he, hn⟩)
    · exact semi_keep (keep_some trivial ht)
    · exact semi_keep (hid _ fun _ => trivial)
    · exact semi_keep (hex _ fun _ he => he)
    · exact expect_bind ht fun u hu =>
        keep_map (parseUntilBrace_keep (fun _ => parseMeasureDetail_keep) _ _ hu) fun r hr hg =>
          ⟨hr, hg⟩
    · exact semi_keep (keep_map (parseSort_keep ht) fun e he hg => ⟨he, hg⟩)
    · split
      · split
        · exact semi_keep (keep_some trivial (good_cons ht))
        · exact keep_none
      · exact keep_none
    · exact semi_keep (hid _ fun _ => trivial)
    · refine semi_keep (keep_bind (parseId_keep ht) fun i _ hg =>
        keep_bind (parseColumn_keep hg) fun r _ hr => ?_)
      split
      · exact keep_some trivial hr
      · exact keep_none
    · exact keep_none

theorem parseAfterWords_keep {w : Str} {ts : List Token} (h : GoodL ts) :
    Keep FormedDetail (parseAfterWords w ts) :=
  expect_bind h fun _ hu => semi_keep (keep_map (exprOf_keep hu) fun _ he hg => ⟨he, hg⟩)

theorem parseDetail_keep {ts : List Token} (h : GoodL ts) : Keep FormedDetail (parseDetail ts) :=
  keep_or (parseKeywordDetail_keep h) <|
    keep_bind (parseId_keep h) fun _ _ hg =>
      keep_or (keep_or (parseAfterWords_keep hg) (expect_bind hg fun _ hu =>
        keep_bind (parseId_keep hu) fun _ _ hj => parseAfterWords_keep hj))
        (keep_bind (parseId_keep hg) fun _ _ hj => parseAfterWords_keep hj)

theorem parseRelation_keep {ts : List Token} (h : GoodL ts) :
    Keep (fun t => ∀ d ∈ t.details, FormedDetail d) (parseRelation ts) :=
  keep_bind (parseId_keep h) fun _ _ hg => expect_bind hg fun _ hu =>
    keep_bind (Parse.parseRef_keep hu) fun _ _ hr => expect_bind hr fun _ hv =>
      keep_map (parseUntilBrace_keep (fun _ => parseDetail_keep) _ _ hv) fun _ hd hgd => ⟨hd, hgd⟩

end Verif.Rel

namespace Verif.Ext

open Verif Lex Tree Parse

theorem parseName_keep {ts : List Token} (h : GoodL ts) : Keep Any (parseName ts) := by
  refine keep_bind (parseId_keep h) fun i _ hg => expect_bind hg fun r hr => ?_
  split
  · split
    · exact keep_map (parseId_keep hr) fun _ _ hs => ⟨trivial, hs⟩
    · exact keep_some trivial hr
  · exact keep_some trivial hr

theorem parseAlias_keep {ts : List Token} (h : GoodL ts) : Keep Any (parseAlias ts) := by
  unfold parseAlias
  split
  · exact keep_map (parseId_keep (good_tail h)) fun _ _ hg => ⟨trivial, hg⟩
  · exact keep_some trivial h

theorem parseFunctions_keep : ∀ (f : Nat) (ts : List Token), GoodL ts →
    Keep Any (parseFunctions f ts)
  | 0, _, _ => keep_none
  | f + 1, ts, h => by
    simp only [parseFunctions]
    split
    · exact keep_bind (parseName_keep (good_tail h)) fun n _ hn =>
        keep_bind (parseAlias_keep hn) fun a _ ha => expect_bind ha fun r hr =>
          keep_map (parseFunctions_keep f r hr) fun _ _ hm => ⟨trivial, hm⟩
    · exact expect_map h fun _ hr => ⟨trivial, hr⟩

theorem uri_good {ts : List Token} (h : GoodL ts) : GoodL (parseUri ts).2 := by
  cases ts with
  | nil => exact h
  | cons t ts =>
    simp only [parseUri]
    split
    · exact good_cons h
    · exact h

end Verif.Ext

namespace Verif.Pipe

open Verif Lex Tree Parse

theorem parseRef_keep {ts : List Token} (h : GoodL ts) : Keep Any (parseRef ts) := by
  refine keep_bind (parseId_keep h) fun i _ hg => ?_
  split
  · rename_i a b r hr
    have hg' := hg
    rw [hr] at hg'
    split
    · refine keep_bind (parseId_keep (good_cons (good_cons hg'))) fun j _ hj => ?_
      split
      · rename_i c r hc
        rw [hc] at hj
        split
        · exact keep_some trivial (good_cons hj)
        · exact keep_none
      · exact keep_none
    · exact keep_some trivial hg
  · exact keep_some trivial hg

theorem parsePipeline_keep : ∀ (f : Nat) (acc : List Ref) (ts : List Token), GoodL ts →
    Keep Any (parsePipeline f acc ts)
  | 0, _, _, _ => keep_none
  | f + 1, acc, ts, h => by
    simp only [parsePipeline]
    split
    · exact keep_bind (parseRef_keep (good_tail h)) fun r _ hr => parsePipeline_keep f _ _ hr
    · exact expect_map h fun _ hr => ⟨trivial, hr⟩

theorem parsePipelines_keep : ∀ (f : Nat) (ts : List Token), GoodL ts →
    Keep Any (parsePipelines f ts)
  | 0, _, _ => keep_none
  | f + 1, ts, h => by
    simp only [parsePipelines]
    split
    · exact keep_some trivial (good_tail h)
    · exact keep_bind (parseRef_keep h) fun r _ hr =>
        keep_bind (parsePipeline_keep f _ _ hr) fun p _ hp =>
          keep_map (parsePipelines_keep f _ hp) fun _ _ hs => ⟨trivial, hs⟩

theorem parseSection_keep {ts : List Token} (h : GoodL ts) : Keep Any (parseSection ts) :=
  expect_bind h fun _ hu => expect_bind hu fun _ hv => parsePipelines_keep _ _ hv

end Verif.Pipe

namespace Verif.Sec

open Verif Lex Tree Parse

theorem parseListed_keep {α : Type} {P : α → Prop} {p : List Token → Option (α × List Token)}
    (hp : ∀ ts, GoodL ts → Keep P (p ts)) : ∀ (n : Nat) (ts : List Token), GoodL ts →
    Keep Any (parseListed p n ts)
  | 0, _, _ => keep_none
  | n + 1, ts, h => by
    simp only [parseListed]
    refine keep_bind (hp ts h) fun x _ hg => ?_
    split
    · split
      · exact keep_some trivial (good_tail (good_tail hg))
      · exact keep_map (parseListed_keep hp n _ (good_tail hg)) fun _ _ hr => ⟨trivial, hr⟩
    · exact expect_map hg fun _ hu => ⟨trivial, hu⟩

theorem parseAssigned_keep {α : Type} {P : α → Prop} {k : Tk}
    {p : List Token → Option (α × List Token)} (hp : ∀ ts, GoodL ts → Keep P (p ts))
    {ts : List Token} (h : GoodL ts) : Keep Any (parseAssigned k p ts) :=
  expect_bind h fun _ ha => expect_bind ha fun _ hb => expect_bind hb fun _ hc =>
    parseListed_keep hp _ _ hc

theorem parseRoot_keep {ts : List Token} (h : GoodL ts) : Keep Any (parseRoot ts) :=
  expect_bind h fun _ ha => expect_bind ha fun _ hb =>
    keep_bind (parseAssigned_keep (fun _ => parseId_keep) hb) fun _ _ hr =>
      expect_map hr fun _ hu => ⟨trivial, hu⟩

theorem parseColumn_keep {ts : List Token} (h : GoodL ts) :
    Keep (fun c => TyPb.WellFormed c.2) (parseColumn ts) :=
  Rel.semi_keep (keep_bind (parseId_keep h) fun _ _ hi =>
    keep_bind (parseType_keep _ _ hi) fun _ ht hg =>
      keep_map (Rel.parseOptId_keep hg) fun _ _ hn => ⟨ht, hn⟩)

theorem parseSchema_keep {ts : List Token} (h : GoodL ts) :
    Keep (fun s => ∀ c ∈ s.2, TyPb.WellFormed c.2) (parseSchema ts) :=
  expect_bind h fun _ ha => keep_bind (parseId_keep ha) fun _ _ hi => expect_bind hi fun _ hb =>
    keep_map (Rel.parseUntilBrace_keep (fun _ => parseColumn_keep) _ _ hb) fun _ hr hg => ⟨hr, hg⟩

theorem parseString_keep {ts : List Token} (h : GoodL ts) : Keep Any (parseString ts) := by
  cases ts with
  | nil => exact keep_none
  | cons t ts =>
    simp only [parseString]
    split
    · exact keep_some trivial (good_cons h)
    · exact keep_none

theorem parseNumber_keep {ts : List Token} (h : GoodL ts) : Keep Any (parseNumber ts) := by
  cases ts with
  | nil => exact keep_none
  | cons t ts =>
    simp only [parseNumber]
    split
    · exact keep_some trivial (good_cons h)
    · exact keep_none

theorem braces_map {β : Type} {x : β} {ts : List Token} (h : GoodL ts) :
    Keep Any ((parseBraces ts).map fun r => (x, r)) := by
  unfold parseBraces
  simp only [Option.map_bind, Function.comp_def]
  exact expect_bind h fun _ ha => expect_bind ha fun _ hb => expect_map hb fun _ hc => ⟨trivial, hc⟩

theorem parseFileDetail_keep {ts : List Token} (h : GoodL ts) : Keep Any (parseFileDetail ts) := by
  cases ts with
  | nil => exact keep_none
  | cons t ts =>
    have ht := good_cons h
    have hn : ∀ (f : Str → FileDetail),
        Keep Any (((expect .colon ts).bind parseNumber).map fun r => (f r.1, r.2)) := fun f =>
      keep_map (expect_bind ht fun _ => parseNumber_keep) fun _ _ hg => ⟨trivial, hg⟩
    have hs : ∀ (f : Str → FileDetail),
        Keep Any (((expect .colon ts).bind parseString).map fun r => (f r.1, r.2)) := fun f =>
      keep_map (expect_bind ht fun _ => parseString_keep) fun _ _ hg => ⟨trivial, hg⟩
    simp only [parseFileDetail]
    split
    · exact hn _
    · exact hn _
    · exact hn _
    · exact braces_map ht
    · exact braces_map ht
    · exact hs _
    · exact hs fun _ => .location
    · exact hs fun _ => .location
    · exact hs fun _ => .location
    · exact keep_none

theorem parseFile_keep {ts : List Token} (h : GoodL ts) : Keep Any (parseFile ts) :=
  expect_bind h fun _ ha =>
    keep_map (Rel.parseUntilBrace_keep (fun _ => parseFileDetail_keep) _ _ ha) fun _ _ hg =>
      ⟨trivial, hg⟩

theorem parseSourceDetail_keep {α : Type} {P : α → Prop} {k : Tk}
    {p : List Token → Option (α × List Token)} (hp : ∀ ts, GoodL ts → Keep P (p ts))
    {ts : List Token} (h : GoodL ts) : Keep Any (parseSourceDetail k p ts) := by
  unfold parseSourceDetail
  split
  · exact keep_map (parseId_keep (good_tail h)) fun _ _ hg => ⟨trivial, hg⟩
  · exact parseAssigned_keep hp h

theorem parseReadType_keep {ts : List Token} (h : GoodL ts) : Keep Any (parseReadType ts) := by
  cases ts with
  | nil => exact keep_none
  | cons t ts =>
    have ht := good_cons h
    simp only [parseReadType]
    split
    · exact keep_bind (parseId_keep ht) fun _ _ hi => expect_bind hi fun _ hb =>
        keep_map (Rel.parseUntilBrace_keep
          (fun _ => parseSourceDetail_keep fun _ => parseFile_keep) _ _ hb) fun _ _ hg =>
            ⟨trivial, hg⟩
    · exact keep_bind (parseId_keep ht) fun _ _ hi => expect_bind hi fun _ hb =>
        keep_map (Rel.parseUntilBrace_keep
          (fun _ => parseSourceDetail_keep fun _ => parseString_keep) _ _ hb) fun _ _ hg =>
            ⟨trivial, hg⟩
    · exact keep_bind (parseId_keep ht) fun _ _ hi => expect_bind hi fun _ hb =>
        expect_map hb fun _ hc => ⟨trivial, hc⟩
    · exact keep_bind (parseId_keep ht) fun _ _ hi => expect_bind hi fun _ hb =>
        expect_map hb fun _ hc => ⟨trivial, hc⟩
    · exact keep_none

theorem parseSource_keep {ts : List Token} (h : GoodL ts) : Keep Any (parseSource ts) :=
  expect_bind h fun _ => parseReadType_keep

theorem parseSpace_keep {ts : List Token} (h : GoodL ts) : Keep Any (parseSpace ts) :=
  expect_bind h fun _ ha => expect_bind (Ext.uri_good ha) fun _ hb =>
    keep_map (Ext.parseFunctions_keep _ _ hb) fun _ _ hm => ⟨trivial, hm⟩

theorem parsePlanDetail_keep {ts : List Token} (h : GoodL ts) :
    Keep FormedPart (parsePlanDetail ts) := by
  unfold parsePlanDetail
  split
  · exact keep_map (Rel.parseRelation_keep h) fun _ hr hg => ⟨hr, hg⟩
  · split
    · exact keep_map (Pipe.parseSection_keep h) fun _ _ hg => ⟨trivial, hg⟩
    · split
      · exact keep_map (parseRoot_keep h) fun _ _ hg => ⟨trivial, hg⟩
      · split
        · exact keep_map (parseSchema_keep h) fun _ hr hg => ⟨hr, hg⟩
        · split
          · exact keep_map (parseSource_keep h) fun _ _ hg => ⟨trivial, hg⟩
          · exact keep_map (parseSpace_keep h) fun _ _ hg => ⟨trivial, hg⟩

theorem parsePlan_formed : ∀ (n : Nat) (ts : List Token) (ds : List PlanDetail), GoodL ts →
    parsePlan n ts = some ds → ∀ d ∈ ds, FormedPart d
  | _, [], ds, _, e, d, hd => by
    unfold parsePlan at e
    simp only [Option.some.injEq] at e
    subst e
    simp at hd
  | 0, _ :: _, ds, _, e, d, hd => by simp [parsePlan] at e
  | n + 1, t :: ts, ds, h, e, d, hd => by
    simp only [parsePlan] at e
    cases hp : parsePlanDetail (t :: ts) with
    | none => rw [hp] at e; simp at e
    | some x =>
      have hx := parsePlanDetail_keep h x hp
      rw [hp] at e
      simp only [Option.bind_some, Option.map_eq_some_iff] at e
      obtain ⟨r, hr, rfl⟩ := e
      rcases List.mem_cons.mp hd with rfl | hd
      · exact hx.1
      · exact parsePlan_formed n x.2 r hx.2 hr d hd

end Verif.Sec
