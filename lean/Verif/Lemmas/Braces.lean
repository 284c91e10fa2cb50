import Verif.Spec.Braces

/-! # The parser takes whole sections -/

namespace Verif.Braces

open Verif Lex Tree Parse

theorem Paired.append {a b : List Token} (ha : Paired a) (hb : Paired b) : Paired (a ++ b) := by
  induction ha with
  | nil => exact hb
  | plain ht _ ih => exact .plain ht ih
  | pair ho hc h1 _ _ ih2 =>
    have := Paired.pair ho hc h1 ih2
    simpa using this

theorem Paired.of_plain {a : List Token} (h : ∀ t ∈ a, Plain t) : Paired a := by
  induction a with
  | nil => exact .nil
  | cons t a ih => exact .plain (h t (by simp)) (ih fun x hx => h x (by simp [hx]))

/-- Words only, up to here. -/
def Pl (ts rest : List Token) : Prop := ∃ used, ts = used ++ rest ∧ ∀ t ∈ used, Plain t

/-- Paired tokens, up to here. -/
def Dy (ts rest : List Token) : Prop := ∃ used, ts = used ++ rest ∧ Paired used

/-- Paired tokens and a closing brace, up to here. -/
def En (ts rest : List Token) : Prop :=
  ∃ inner c, ts = inner ++ c :: rest ∧ Paired inner ∧ c.kind = .rightBrace

/-- The same, and then paired tokens. -/
def Ey (ts rest : List Token) : Prop := ∃ mid, En ts mid ∧ Dy mid rest

/-- A section, up to here. -/
def Se (ts rest : List Token) : Prop := ∃ s, ts = s ++ rest ∧ Section s

theorem Pl.refl (ts : List Token) : Pl ts ts := ⟨[], rfl, by simp⟩

theorem Dy.refl (ts : List Token) : Dy ts ts := ⟨[], rfl, .nil⟩

theorem Pl.dy {a b : List Token} (h : Pl a b) : Dy a b := by
  obtain ⟨u, rfl, hu⟩ := h
  exact ⟨u, rfl, .of_plain hu⟩

theorem Pl.trans {a b c : List Token} (h : Pl a b) (h' : Pl b c) : Pl a c := by
  obtain ⟨u, rfl, hu⟩ := h
  obtain ⟨v, rfl, hv⟩ := h'
  refine ⟨u ++ v, by simp, fun t ht => ?_⟩
  rcases List.mem_append.mp ht with ht | ht
  · exact hu t ht
  · exact hv t ht

theorem Dy.trans {a b c : List Token} (h : Dy a b) (h' : Dy b c) : Dy a c := by
  obtain ⟨u, rfl, hu⟩ := h
  obtain ⟨v, rfl, hv⟩ := h'
  exact ⟨u ++ v, by simp, hu.append hv⟩

theorem Dy.en {a b c : List Token} (h : Dy a b) (h' : En b c) : En a c := by
  obtain ⟨u, rfl, hu⟩ := h
  obtain ⟨v, x, rfl, hv, hx⟩ := h'
  exact ⟨u ++ v, x, by simp, hu.append hv, hx⟩

theorem Dy.ey {a b c : List Token} (h : Dy a b) (h' : Ey b c) : Ey a c := by
  obtain ⟨m, hm, hd⟩ := h'
  exact ⟨m, h.en hm, hd⟩

theorem Pl.se {a b c : List Token} (h : Pl a b) (h' : Se b c) : Se a c := by
  obtain ⟨u, rfl, hu⟩ := h
  obtain ⟨s, rfl, w, o, i, x, rfl, hw, ho, hx, hi⟩ := h'
  refine ⟨u ++ (w ++ o :: (i ++ [x])), by simp, u ++ w, o, i, x, by simp, fun t ht => ?_, ho, hx, hi⟩
  rcases List.mem_append.mp ht with ht | ht
  · exact hu t ht
  · exact hw t ht

theorem Pl.cons {t : Token} {a b : List Token} (ht : Plain t) (h : Pl a b) : Pl (t :: a) b :=
  Pl.trans ⟨[t], rfl, by simpa using ht⟩ h

theorem pl_one {t : Token} {a : List Token} (ht : Plain t) : Pl (t :: a) a := .cons ht (.refl a)

theorem open_ey {t : Token} {a b : List Token} (ht : t.kind = .leftBrace) (h : Ey a b) :
    Dy (t :: a) b := by
  obtain ⟨m, ⟨i, c, rfl, hi, hc⟩, u, rfl, hu⟩ := h
  exact ⟨t :: (i ++ c :: u), by simp, .pair ht hc hi hu⟩

theorem open_se {t : Token} {a b : List Token} (ht : t.kind = .leftBrace) (h : En a b) :
    Se (t :: a) b := by
  obtain ⟨i, c, rfl, hi, hc⟩ := h
  exact ⟨t :: (i ++ [c]), by simp, [], t, i, c, rfl, by simp, ht, hc, hi⟩

theorem En.ey {a b : List Token} (h : En a b) : Ey a b := ⟨b, h, .refl b⟩

/-- The ways in which tokens are taken. -/
inductive Way
  | pl | dy | en | ey | se

/-- What each of the ways means. -/
def Way.Up : Way → List Token → List Token → Prop
  | .pl => Pl
  | .dy => Dy
  | .en => En
  | .ey => Ey
  | .se => Se

/-- One way after the other. -/
def Then (R S T : Way) : Prop := ∀ {a b c : List Token}, R.Up a b → S.Up b c → T.Up a c

theorem thenPl : Then .pl .pl .pl := Pl.trans
theorem thenDy : Then .dy .dy .dy := Dy.trans
theorem thenDyEn : Then .dy .en .en := Dy.en
theorem thenDyEy : Then .dy .ey .ey := Dy.ey
theorem thenSe : Then .pl .se .se := Pl.se
theorem thenPlDy : Then .pl .dy .dy := fun h h' => Dy.trans (Pl.dy h) h'
theorem thenPlEn : Then .pl .en .en := fun h h' => Dy.en (Pl.dy h) h'
theorem thenPlEy : Then .pl .ey .ey := fun h h' => Dy.ey (Pl.dy h) h'

/-- The tokens that are taken, if the result is there. -/
def Takes {α : Type} (R : Way) (ts : List Token)
    (o : Option (α × List Token)) : Prop := ∀ x, o = some x → R.Up ts x.2

variable {α β : Type} {R S T : Way} {ts : List Token}

theorem takes_none : Takes (α := α) R ts none := fun _ h => by simp at h

theorem takes_some {x : α × List Token} (h : R.Up ts x.2) : Takes R ts (some x) := by
  intro y e
  simp only [Option.some.injEq] at e
  subst e
  exact h

theorem takes_bind {o : Option (α × List Token)} {f : α × List Token → Option (β × List Token)}
    (c : Then R S T) (h : Takes R ts o) (hf : ∀ x, Takes S x.2 (f x)) :
    Takes T ts (o.bind f) := by
  cases o with
  | none => exact takes_none
  | some x => exact fun y hy => c (h x rfl) (hf x y hy)

theorem takes_map {o : Option (α × List Token)} {f : α × List Token → β × List Token}
    (h : Takes R ts o) (hf : ∀ x, (f x).2 = x.2 := by intro; rfl) : Takes R ts (o.map f) := by
  cases o with
  | none => exact takes_none
  | some x =>
    refine takes_some ?_
    rw [hf]
    exact h x rfl

theorem takes_dy {o : Option (α × List Token)} (h : Takes .pl ts o) :
    Takes .dy ts o := fun x hx => Pl.dy (h x hx)

theorem takes_or {o q : Option (α × List Token)} (h : Takes R ts o) (hq : Takes R ts q) :
    Takes R ts (o.or q) := by
  cases o with
  | none => exact hq
  | some x => exact h

theorem takes_before {u : List Token} {o : Option (α × List Token)}
    (c : Then R S T) (h : R.Up ts u) (ho : Takes S u o) : Takes T ts o :=
  fun x hx => c h (ho x hx)

/-- A kind that is no brace. -/
def PlainKind (k : Tk) : Prop := k ≠ .leftBrace ∧ k ≠ .rightBrace

instance (k : Tk) : Decidable (PlainKind k) := inferInstanceAs (Decidable (_ ∧ _))

theorem plain_of_kind {t : Token} {k : Tk} (h : t.kind = k)
    (hk : PlainKind k) : Plain t := by
  subst h
  exact hk

theorem plain_of_simpleId {t : Token} (h : isSimpleId t.kind = true) : Plain t := by
  constructor <;> intro e <;> rw [e] at h <;> cases h

theorem expect_some {k : Tk} {u : List Token} (h : expect k ts = some u) :
    ∃ t, ts = t :: u ∧ t.kind = k := by
  cases ts with
  | nil => simp [expect] at h
  | cons t ts =>
    simp only [expect] at h
    split at h
    · simp only [Option.some.injEq] at h
      subst h
      exact ⟨t, rfl, by assumption⟩
    · simp at h

theorem expect_plain {k : Tk} {f : List Token → Option (β × List Token)}
    (c : Then .pl S T) (hf : ∀ u, Takes S u (f u))
    (hk : PlainKind k := by decide) : Takes T ts ((expect k ts).bind f) := by
  cases h : expect k ts with
  | none => exact takes_none
  | some u =>
    obtain ⟨t, rfl, ht⟩ := expect_some h
    exact takes_before c (pl_one (plain_of_kind ht hk)) (hf u)

theorem expect_last {k : Tk} {f : List Token → β × List Token}
    (hf : ∀ u, (f u).2 = u := by intro; rfl) (hk : PlainKind k := by decide) :
    Takes .pl ts ((expect k ts).map f) := by
  cases h : expect k ts with
  | none => exact takes_none
  | some u =>
    obtain ⟨t, rfl, ht⟩ := expect_some h
    refine takes_some ?_
    rw [hf]
    exact pl_one (plain_of_kind ht hk)

theorem expect_open {f : List Token → Option (β × List Token)} (hf : ∀ u, Takes .en u (f u)) :
    Takes .se ts ((expect .leftBrace ts).bind f) := by
  cases h : expect .leftBrace ts with
  | none => exact takes_none
  | some u =>
    obtain ⟨t, rfl, ht⟩ := expect_some h
    exact fun x hx => open_se ht (hf u x hx)

theorem expect_openD {f : List Token → Option (β × List Token)} (hf : ∀ u, Takes .en u (f u)) :
    Takes .dy ts ((expect .leftBrace ts).bind f) := by
  cases h : expect .leftBrace ts with
  | none => exact takes_none
  | some u =>
    obtain ⟨t, rfl, ht⟩ := expect_some h
    exact fun x hx => open_ey ht (hf u x hx).ey

theorem expect_close {f : List Token → β × List Token} (hf : ∀ u, (f u).2 = u := by intro; rfl) :
    Takes .en ts ((expect .rightBrace ts).map f) := by
  cases h : expect .rightBrace ts with
  | none => exact takes_none
  | some u =>
    obtain ⟨t, rfl, ht⟩ := expect_some h
    refine takes_some ?_
    rw [hf]
    exact ⟨[], t, rfl, .nil, ht⟩

theorem expect_closed {f : List Token → Option (β × List Token)} (hf : ∀ u, Takes .dy u (f u)) :
    Takes .ey ts ((expect .rightBrace ts).bind f) := by
  cases h : expect .rightBrace ts with
  | none => exact takes_none
  | some u =>
    obtain ⟨t, rfl, ht⟩ := expect_some h
    exact fun x hx => ⟨u, ⟨[], t, rfl, .nil, ht⟩, hf u x hx⟩

theorem next_tail {k : Tk} (h : nextIs k ts = true) :
    ∃ t, ts = t :: ts.tail ∧ t.kind = k := by
  cases ts with
  | nil => simp [nextIs] at h
  | cons t ts => exact ⟨t, rfl, by simpa [nextIs] using h⟩

theorem next_plain {k : Tk} (h : nextIs k ts = true) (hk : PlainKind k := by decide) :
    Pl ts ts.tail := by
  obtain ⟨t, e, ht⟩ := next_tail h
  rw [e]
  exact pl_one (plain_of_kind ht hk)

theorem next_close (h : nextIs .rightBrace ts = true) : En ts ts.tail := by
  obtain ⟨t, e, ht⟩ := next_tail h
  rw [e]
  exact ⟨[], t, rfl, .nil, ht⟩

theorem idTail_takes : ∀ (ts : List Token) (acc pend : Str) (back : List Token),
    Pl back ts → Pl back (idTail acc pend back ts).2
  | [], _, _, back, _ => .refl back
  | t :: ts, acc, pend, back, h => by
    unfold idTail
    split
    · rename_i hk
      exact idTail_takes ts _ _ _ (h.trans (pl_one (plain_of_kind hk (by decide))))
    · split
      · rename_i hk
        simp only [Bool.and_eq_true] at hk
        exact (h.trans (pl_one (plain_of_simpleId hk.1))).trans (idTail_takes ts _ _ _ (.refl ts))
      · exact .refl back

theorem parseId_takes : Takes .pl ts (parseId ts) := by
  cases ts with
  | nil => exact takes_none
  | cons t ts =>
    simp only [parseId]
    split
    · rename_i hk
      exact takes_some (.cons (plain_of_simpleId hk) (idTail_takes ts _ _ _ (.refl ts)))
    · exact takes_none

theorem question_takes : Pl ts (parseQuestion ts).2 := by
  unfold parseQuestion
  split
  · exact next_plain (by assumption)
  · exact .refl ts

theorem comma_takes : Pl ts (parseComma ts).2 := by
  unfold parseComma
  split
  · exact next_plain (by assumption)
  · exact .refl ts

theorem parseNumbers_takes : ∀ (n : Nat) (ts : List Token), ts.length ≤ n →
    Takes .pl ts (parseNumbers ts)
  | _, [], _ => by unfold parseNumbers; exact takes_none
  | _, [t], _ => by unfold parseNumbers; exact takes_none
  | 0, a :: b :: ts, hn => by simp at hn
  | n + 1, a :: b :: ts, hn => by
    unfold parseNumbers
    split
    · rename_i ha
      have pa := plain_of_kind ha (by decide)
      split
      · rename_i hb
        exact takes_map (takes_before thenPl (.cons pa (pl_one (plain_of_kind hb (by decide))))
          (parseNumbers_takes n ts (by simp at hn; omega)))
      · split
        · rename_i hb
          exact takes_some (.cons pa (pl_one (plain_of_kind hb (by decide))))
        · exact takes_none
    · exact takes_none

theorem parseBasic_takes : Takes .pl ts (parseBasic ts) := by
  refine takes_bind thenPl parseId_takes fun i => ?_
  simp only
  split
  · rename_i hk
    exact takes_map (takes_before thenPl (question_takes.trans (next_plain hk))
      (parseNumbers_takes _ _ (Nat.le_refl _)))
  · exact takes_some question_takes

theorem parseOptBasic_takes : Takes .pl ts (parseOptBasic ts) := by
  unfold parseOptBasic
  split
  · split
    · exact parseBasic_takes
    · exact takes_some (.refl _)
  · exact takes_some (.refl _)

mutual
theorem parseType_takes : ∀ (f : Nat) (ts : List Token), Takes .pl ts (parseType f ts)
  | 0, _ => by unfold parseType; exact takes_none
  | f + 1, [] => by unfold parseType; exact takes_none
  | f + 1, t :: ts => by
    unfold parseType
    split
    · rename_i hk
      exact takes_before thenPl (.cons (plain_of_kind hk (by decide)) question_takes)
        (expect_plain thenPl fun u => takes_bind thenPl (parseOptType_takes f u) fun e =>
          expect_last)
    · split
      · rename_i hk
        exact takes_before thenPl (.cons (plain_of_kind hk (by decide)) question_takes)
          (expect_plain thenPl fun u => takes_bind thenPl parseOptBasic_takes fun k =>
            takes_before thenPl comma_takes
              (takes_bind thenPl (parseOptType_takes f _) fun v => expect_last))
      · split
        · rename_i hk
          exact takes_before thenPl (.cons (plain_of_kind hk (by decide)) question_takes)
            (expect_plain thenPl fun u => takes_bind thenPl (parseOptType_takes f u) fun e =>
              takes_bind thenPl (parseMoreTypes_takes f _) fun es => expect_last)
        · exact parseBasic_takes
theorem parseOptType_takes : ∀ (f : Nat) (ts : List Token), Takes .pl ts (parseOptType f ts)
  | 0, _ => by unfold parseOptType; exact takes_none
  | f + 1, ts => by
    unfold parseOptType
    split
    · exact parseType_takes f ts
    · exact takes_some (.refl ts)
theorem parseMoreTypes_takes : ∀ (f : Nat) (ts : List Token), Takes .pl ts (parseMoreTypes f ts)
  | 0, _ => by unfold parseMoreTypes; exact takes_none
  | f + 1, ts => by
    unfold parseMoreTypes
    split
    · rename_i hk
      exact takes_before thenPl (next_plain hk) (takes_bind thenPl (parseType_takes f _) fun e =>
        takes_map (parseMoreTypes_takes f _))
    · exact takes_some (.refl ts)
end

theorem suffixBasic_takes : Takes .pl ts (parseSuffixBasic ts) := by
  unfold parseSuffixBasic
  split
  · rename_i hk
    exact takes_before thenPl (next_plain hk) (takes_map parseBasic_takes)
  · exact takes_some (.refl ts)

theorem suffixType_takes (f : Nat) : Takes .pl ts (parseSuffixType f ts) := by
  unfold parseSuffixType
  split
  · rename_i hk
    exact takes_before thenPl (next_plain hk) (takes_map (parseType_takes f _))
  · exact takes_some (.refl ts)

mutual
theorem parseConst_takes : ∀ (f : Nat) (ts : List Token), Takes .dy ts (parseConst f ts)
  | 0, _ => by unfold parseConst; exact takes_none
  | f + 1, [] => by unfold parseConst; exact takes_none
  | f + 1, t :: ts => by
    have one : ∀ {γ : Type} {o : Option (γ × List Token)} {k : Tk}, t.kind = k → PlainKind k →
        Takes .pl ts o → Takes .dy (t :: ts) o := fun hk hp h =>
      takes_dy (takes_before thenPl (pl_one (plain_of_kind hk hp)) h)
    have braced : ∀ {γ : Type} {o : Option (γ × List Token)}, t.kind = .leftBrace →
        Takes .ey ts o → Takes .dy (t :: ts) o := fun hk h x hx => open_ey hk (h x hx)
    unfold parseConst
    split
    · exact one (by assumption) (by decide) (takes_map suffixBasic_takes)
    · exact one (by assumption) (by decide) (takes_map suffixBasic_takes)
    · exact one (by assumption) (by decide) (takes_map suffixBasic_takes)
    · exact one (by assumption) (by decide) (takes_map suffixBasic_takes)
    · exact one (by assumption) (by decide) (takes_map (suffixType_takes f))
    · rename_i hk
      refine braced hk ?_
      split
      · rename_i hn
        exact takes_map fun x hx => ⟨ts.tail, next_close hn, (suffixType_takes f x hx).dy⟩
      · refine takes_bind thenDyEy (parseConst_takes f ts) fun a => ?_
        split
        · rename_i hc
          exact takes_before thenPlEy (next_plain hc)
            (takes_bind thenDyEy (parseConst_takes f _) fun b =>
              takes_bind thenDyEy (parseMorePairs_takes f _) fun m =>
                expect_closed fun u => takes_map (takes_dy (suffixType_takes f)))
        · exact takes_bind thenDyEy (parseMoreConsts_takes f _) fun m =>
            expect_closed fun u => takes_map (takes_dy (suffixType_takes f))
    · exact takes_none
theorem parseMoreConsts_takes : ∀ (f : Nat) (ts : List Token), Takes .dy ts (parseMoreConsts f ts)
  | 0, _ => by unfold parseMoreConsts; exact takes_none
  | f + 1, ts => by
    unfold parseMoreConsts
    split
    · rename_i hk
      exact takes_before thenPlDy (next_plain hk) (takes_bind thenDy (parseConst_takes f _)
        fun a => takes_map (parseMoreConsts_takes f _))
    · exact takes_some (.refl ts)
theorem parseMorePairs_takes : ∀ (f : Nat) (ts : List Token), Takes .dy ts (parseMorePairs f ts)
  | 0, _ => by unfold parseMorePairs; exact takes_none
  | f + 1, ts => by
    unfold parseMorePairs
    split
    · rename_i hk
      exact takes_before thenPlDy (next_plain hk) (takes_bind thenDy (parseConst_takes f _)
        fun a => expect_plain thenPlDy fun u => takes_bind thenDy (parseConst_takes f _)
          fun b => takes_map (parseMorePairs_takes f _))
    · exact takes_some (.refl ts)
end

theorem parseRef_takes : Takes .pl ts (parseRef ts) := by
  refine takes_bind thenPl parseId_takes fun i => ?_
  split
  · rename_i a b r hr
    split
    · rename_i hk
      rw [hr]
      exact takes_before thenPl (.cons (plain_of_kind hk.1 (by decide))
        (pl_one (plain_of_kind hk.2 (by decide))))
        (takes_bind thenPl parseId_takes fun j => expect_last)
    · exact takes_some (.refl _)
  · exact takes_some (.refl _)

theorem parseSubquery_takes {r : Str × RelRef × List Token} (e : parseSubquery ts = some r) :
    Pl ts r.2.2 := by
  cases ts with
  | nil => simp [parseSubquery] at e
  | cons t ts =>
    simp only [parseSubquery] at e
    split at e
    · rename_i hk
      cases hp : parseRef ts with
      | none => rw [hp] at e; simp at e
      | some x =>
        rw [hp] at e
        simp only [Option.map_some, Option.some.injEq] at e
        subst e
        exact .cons (plain_of_kind hk (by decide)) (parseRef_takes x hp)
    · simp at e

theorem parseInSubquery_takes {r : Str × RelRef × List Token} (e : parseInSubquery ts = some r) :
    Pl ts r.2.2 := by
  cases ts with
  | nil => simp [parseInSubquery] at e
  | cons t ts =>
    simp only [parseInSubquery] at e
    split at e
    · rename_i hk
      cases hp : parseSubquery ts with
      | none => rw [hp] at e; simp at e
      | some x =>
        rw [hp] at e
        simp only [Option.map_some, Option.some.injEq] at e
        subst e
        exact .cons (plain_of_kind hk (by decide)) (parseSubquery_takes (r := x) hp)
    · simp at e

theorem subquery_takes {o : Option (Str × RelRef × List Token)}
    {f : Str × RelRef × List Token → β × List Token} (h : ∀ r, o = some r → Pl ts r.2.2)
    (hf : ∀ r, (f r).2 = r.2.2 := by intro; rfl) : Takes .pl ts (o.map f) := by
  cases o with
  | none => exact takes_none
  | some r =>
    refine takes_some ?_
    rw [hf]
    exact h r rfl

theorem parseColumn_takes {id : Str} : Takes .pl ts (parseColumn id ts) := by
  unfold parseColumn
  split
  · rename_i hk
    exact takes_before thenPl (next_plain hk) (takes_map parseId_takes)
  · exact takes_some (.refl ts)

theorem parseArrow_takes (f : Nat) : Takes .pl ts (parseArrow f ts) := by
  unfold parseArrow
  split
  · rename_i hk
    exact takes_before thenPl (next_plain hk) (takes_map (parseType_takes f _))
  · exact takes_some (.refl ts)

theorem constExpr_takes (f : Nat) :
    Takes .dy ts ((parseConst f ts).map fun c => (ExprTree.const c.1, c.2)) :=
  takes_map (parseConst_takes f ts)

mutual
theorem parseExpr_takes : ∀ (f : Nat) (ts : List Token), Takes .dy ts (parseExpr f ts)
  | 0, _ => by unfold parseExpr; exact takes_none
  | f + 1, ts => by
    unfold parseExpr
    exact takes_bind thenDy (parsePrimary_takes f ts) fun e => parsePostfix_takes f e.1 e.2
theorem parsePrimary_takes : ∀ (f : Nat) (ts : List Token), Takes .dy ts (parsePrimary f ts)
  | 0, _ => by unfold parsePrimary; exact takes_none
  | f + 1, [] => by unfold parsePrimary; exact takes_none
  | f + 1, t :: ts => by
    unfold parsePrimary
    split
    · exact takes_dy (subquery_takes fun r => parseSubquery_takes)
    · rename_i hk
      exact takes_dy (takes_before thenPl (pl_one (plain_of_kind hk (by decide)))
        (subquery_takes fun r => parseInSubquery_takes))
    · rename_i hk
      exact takes_dy (takes_before thenPl (pl_one (plain_of_kind hk (by decide)))
        (subquery_takes fun r => parseInSubquery_takes))
    · rename_i hk
      exact takes_before thenPlDy (pl_one (plain_of_kind hk (by decide)))
        (takes_bind thenDy (parseExpr_takes f ts) fun e =>
          takes_bind thenDy (parseMoreExprs_takes f _) fun m => expect_plain thenPlDy fun u =>
            takes_dy (subquery_takes fun r => parseInSubquery_takes))
    · exact constExpr_takes f
    · exact constExpr_takes f
    · exact constExpr_takes f
    · exact constExpr_takes f
    · exact constExpr_takes f
    · cases hi : parseId (t :: ts) with
      | none => exact takes_none
      | some i =>
        have hp : Pl (t :: ts) i.2 := parseId_takes i hi
        simp only [Option.bind_some]
        split
        · rename_i hk
          exact takes_before thenPlDy (hp.trans (next_plain hk))
            (takes_bind thenDy (parseArgs_takes f _) fun a =>
              takes_map (takes_dy (parseArrow_takes f)))
        · split
          · exact takes_before thenPlDy hp (takes_dy parseColumn_takes)
          · split
            · exact constExpr_takes f
            · exact takes_before thenPlDy hp (takes_dy parseColumn_takes)
theorem parsePostfix_takes : ∀ (f : Nat) (e : ExprTree) (ts : List Token),
    Takes .dy ts (parsePostfix f e ts)
  | 0, _, _ => by unfold parsePostfix; exact takes_none
  | f + 1, e, ts => by
    unfold parsePostfix
    split
    · rename_i a rest
      split
      · rename_i hk
        exact takes_before thenPlDy (pl_one (plain_of_kind hk (by decide)))
          (takes_bind thenPlDy (parseType_takes f _) fun r => parsePostfix_takes f _ _)
      · split
        · rename_i hk
          have pa := plain_of_kind hk (by decide)
          split
          · rename_i b rest'
            split
            · rename_i hb
              have pb : Plain b := by
                rcases hb with hb | hb
                · exact plain_of_kind hb (by decide)
                · exact plain_of_kind hb (by decide)
              cases hp : parseSubquery rest' with
              | none => exact takes_none
              | some r =>
                exact takes_before thenPlDy (.cons pa (.cons pb (parseSubquery_takes hp)))
                  (parsePostfix_takes f _ _)
            · exact takes_some (.refl _)
          · exact takes_some (.refl _)
        · exact takes_some (.refl _)
    · exact takes_some (.refl _)
theorem parseArgs_takes : ∀ (f : Nat) (ts : List Token), Takes .dy ts (parseArgs f ts)
  | 0, _ => by unfold parseArgs; exact takes_none
  | f + 1, ts => by
    unfold parseArgs
    split
    · rename_i hk
      exact takes_some (next_plain hk).dy
    · exact takes_bind thenDy (parseExpr_takes f ts) fun e =>
        takes_before thenPlDy comma_takes (takes_map (parseArgs_takes f _))
theorem parseMoreExprs_takes : ∀ (f : Nat) (ts : List Token), Takes .dy ts (parseMoreExprs f ts)
  | 0, _ => by unfold parseMoreExprs; exact takes_none
  | f + 1, ts => by
    unfold parseMoreExprs
    split
    · rename_i hk
      exact takes_before thenPlDy (next_plain hk) (takes_bind thenDy (parseExpr_takes f _) fun e =>
        takes_map (parseMoreExprs_takes f _))
    · exact takes_some (.refl ts)
end

theorem exprOf_takes : Takes .dy ts (exprOf ts) := parseExpr_takes _ ts

/-! ## Relations -/

theorem idDy : Takes .dy ts (parseId ts) := takes_dy parseId_takes

theorem semi_takes {r : Option (α × List Token)} (h : Takes .dy ts r) : Takes .dy ts (Rel.semi r) :=
  takes_bind thenDy h fun _ => takes_dy expect_last

theorem parseOptId_takes {k : Tk} (hk : PlainKind k := by decide) :
    Takes .dy ts (Rel.parseOptId k ts) := by
  unfold Rel.parseOptId
  split
  · rename_i hn
    exact takes_before thenPlDy (next_plain hn hk) (takes_map idDy)
  · exact takes_some (.refl ts)

theorem parseSort_takes : Takes .dy ts (Rel.parseSort ts) :=
  takes_bind thenDy exprOf_takes fun _ => takes_map parseOptId_takes

theorem parseIds_takes : Takes .dy ts (Rel.parseIds ts) :=
  takes_bind thenDy parseOptId_takes fun _ => takes_map parseOptId_takes

theorem parseMeasureDetail_takes : Takes .dy ts (Rel.parseMeasureDetail ts) := by
  cases ts with
  | nil => exact takes_none
  | cons t ts =>
    simp only [Rel.parseMeasureDetail]
    have one : ∀ {γ : Type} {o : Option (γ × List Token)} {k : Tk}, t.kind = k → PlainKind k →
        Takes .dy ts o → Takes .dy (t :: ts) o := fun hk hp h =>
      takes_before thenPlDy (pl_one (plain_of_kind hk hp)) h
    split
    · exact one (by assumption) (by decide) (semi_takes (takes_bind thenDy exprOf_takes fun e =>
        takes_bind thenDy (takes_dy (parseArrow_takes _)) fun a =>
          takes_map parseIds_takes))
    · exact one (by assumption) (by decide) (semi_takes (takes_map exprOf_takes))
    · exact one (by assumption) (by decide) (semi_takes (takes_map idDy))
    · exact one (by assumption) (by decide) (semi_takes (takes_map parseSort_takes))
    · exact takes_none

theorem parseUntilBrace_takes {p : List Token → Option (α × List Token)}
    (hp : ∀ ts, Takes .dy ts (p ts)) : ∀ (n : Nat) (ts : List Token),
    Takes .en ts (Rel.parseUntilBrace p n ts)
  | 0, _ => takes_none
  | n + 1, ts => by
    simp only [Rel.parseUntilBrace]
    split
    · exact takes_some (next_close (by assumption))
    · exact takes_bind thenDyEn (hp ts) fun d => takes_map (parseUntilBrace_takes hp n _)

theorem parseKeywordDetail_takes : Takes .dy ts (Rel.parseKeywordDetail ts) := by
  cases ts with
  | nil => exact takes_none
  | cons t ts =>
    simp only [Rel.parseKeywordDetail]
    have one : ∀ {γ : Type} {o : Option (γ × List Token)} {k : Tk}, t.kind = k → PlainKind k →
        Takes .dy ts o → Takes .dy (t :: ts) (Rel.semi o) := fun hk hp h =>
      semi_takes (takes_before thenPlDy (pl_one (plain_of_kind hk hp)) h)
    split
    · exact one (by assumption) (by decide) (takes_some (.refl _))
    · exact one (by assumption) (by decide) (takes_map idDy)
    · exact one (by assumption) (by decide) (takes_map exprOf_takes)
    · exact one (by assumption) (by decide) (takes_bind thenDy exprOf_takes fun e =>
        takes_map parseOptId_takes)
    · exact one (by assumption) (by decide) (takes_some (.refl _))
    · exact one (by assumption) (by decide) (takes_map idDy)
    · exact one (by assumption) (by decide) (takes_map exprOf_takes)
    · rename_i hk
      exact takes_before thenPlDy (pl_one (plain_of_kind hk (by decide)))
        (expect_openD fun u => takes_map (parseUntilBrace_takes (fun _ => parseMeasureDetail_takes) _ _))
    · exact one (by assumption) (by decide) (takes_map parseSort_takes)
    · rename_i hk
      split
      · split
        · rename_i n us hn
          exact semi_takes (takes_some (Pl.dy (.cons (plain_of_kind hk (by decide))
            (pl_one (plain_of_kind hn (by decide))))))
        · exact takes_none
      · exact takes_none
    · exact one (by assumption) (by decide) (takes_map idDy)
    · refine one (by assumption) (by decide) (takes_bind thenDy idDy fun i =>
        takes_bind thenDy (takes_dy parseColumn_takes) fun r => ?_)
      split
      · exact takes_some (.refl _)
      · exact takes_none
    · exact takes_none

theorem parseAfterWords_takes {w : Str} : Takes .dy ts (Rel.parseAfterWords w ts) :=
  expect_plain thenPlDy fun _ => semi_takes (takes_map exprOf_takes)

theorem parseDetail_takes : Takes .dy ts (Rel.parseDetail ts) :=
  takes_or parseKeywordDetail_takes <|
    takes_bind thenDy idDy fun _ =>
      takes_or (takes_or parseAfterWords_takes (expect_plain thenPlDy fun _ =>
        takes_bind thenDy idDy fun _ => parseAfterWords_takes))
        (takes_bind thenDy idDy fun _ => parseAfterWords_takes)

theorem parseRelation_takes : Takes .se ts (Rel.parseRelation ts) :=
  takes_bind thenSe parseId_takes fun _ => expect_plain thenSe fun _ =>
    takes_bind thenSe parseRef_takes fun _ => expect_open fun _ =>
      takes_map (parseUntilBrace_takes (fun _ => parseDetail_takes) _ _)

/-! ## Other sections -/

theorem parseName_takes : Takes .dy ts (Ext.parseName ts) := by
  refine takes_bind thenDy idDy fun i => expect_plain thenPlDy fun r => ?_
  split
  · split
    · exact takes_map idDy
    · exact takes_some (.refl _)
  · exact takes_some (.refl _)

theorem parseAlias_takes : Takes .dy ts (Ext.parseAlias ts) := by
  unfold Ext.parseAlias
  split
  · rename_i hk
    exact takes_before thenPlDy (next_plain hk) (takes_map idDy)
  · exact takes_some (.refl ts)

theorem parseFunctions_takes : ∀ (f : Nat) (ts : List Token), Takes .en ts (Ext.parseFunctions f ts)
  | 0, _ => takes_none
  | f + 1, ts => by
    simp only [Ext.parseFunctions]
    split
    · rename_i hk
      exact takes_before thenPlEn (next_plain hk) (takes_bind thenDyEn parseName_takes fun n =>
        takes_bind thenDyEn parseAlias_takes fun a => expect_plain thenPlEn fun r =>
          takes_map (parseFunctions_takes f r))
    · exact expect_close

theorem uri_takes : Pl ts (Ext.parseUri ts).2 := by
  cases ts with
  | nil => exact .refl _
  | cons t ts =>
    simp only [Ext.parseUri]
    split
    · rename_i hk
      exact pl_one (plain_of_kind hk (by decide))
    · exact .refl _

theorem pipeRef_takes : Takes .pl ts (Pipe.parseRef ts) := by
  refine takes_bind thenPl parseId_takes fun i => ?_
  split
  · rename_i a b r hr
    split
    · rename_i hk
      rw [hr]
      refine takes_before thenPl (.cons (plain_of_kind hk.1 (by decide))
        (pl_one (plain_of_kind hk.2 (by decide)))) (takes_bind thenPl parseId_takes fun j => ?_)
      split
      · rename_i c r hc
        rw [hc]
        split
        · rename_i hk
          exact takes_some (pl_one (plain_of_kind hk (by decide)))
        · exact takes_none
      · exact takes_none
    · exact takes_some (.refl _)
  · exact takes_some (.refl _)

theorem parsePipeline_takes : ∀ (f : Nat) (acc : List Pipe.Ref) (ts : List Token),
    Takes .pl ts (Pipe.parsePipeline f acc ts)
  | 0, _, _ => takes_none
  | f + 1, acc, ts => by
    simp only [Pipe.parsePipeline]
    split
    · rename_i hk
      exact takes_before thenPl (next_plain hk) (takes_bind thenPl pipeRef_takes fun r =>
        parsePipeline_takes f _ _)
    · exact expect_last

theorem parsePipelines_takes : ∀ (f : Nat) (ts : List Token), Takes .en ts (Pipe.parsePipelines f ts)
  | 0, _ => takes_none
  | f + 1, ts => by
    simp only [Pipe.parsePipelines]
    split
    · exact takes_some (next_close (by assumption))
    · exact takes_bind thenPlEn pipeRef_takes fun r =>
        takes_bind thenPlEn (parsePipeline_takes f _ _) fun p =>
          takes_map (parsePipelines_takes f _)

theorem parseSection_takes : Takes .se ts (Pipe.parseSection ts) :=
  expect_plain thenSe fun _ => expect_open fun _ => parsePipelines_takes _ _

theorem parseListed_takes {p : List Token → Option (α × List Token)}
    (hp : ∀ ts, Takes .dy ts (p ts)) : ∀ (n : Nat) (ts : List Token),
    Takes .dy ts (Sec.parseListed p n ts)
  | 0, _ => takes_none
  | n + 1, ts => by
    simp only [Sec.parseListed]
    refine takes_bind thenDy (hp ts) fun x => ?_
    split
    · rename_i hk
      split
      · rename_i hr
        exact takes_some ((next_plain hk).trans (next_plain hr)).dy
      · exact takes_before thenPlDy (next_plain hk) (takes_map (parseListed_takes hp n _))
    · exact takes_dy expect_last

theorem parseAssigned_takes {k : Tk} {p : List Token → Option (α × List Token)}
    (hp : ∀ ts, Takes .dy ts (p ts)) (hk : PlainKind k := by decide) :
    Takes .dy ts (Sec.parseAssigned k p ts) :=
  expect_plain thenPlDy (hk := hk) fun _ => expect_plain thenPlDy fun _ =>
    expect_plain thenPlDy fun _ => parseListed_takes hp _ _

theorem parseRoot_takes : Takes .se ts (Sec.parseRoot ts) :=
  expect_plain thenSe fun _ => expect_open fun _ =>
    takes_bind thenDyEn (parseAssigned_takes fun _ => idDy) fun _ => expect_close

theorem schemaColumn_takes : Takes .dy ts (Sec.parseColumn ts) :=
  semi_takes (takes_bind thenDy idDy fun _ =>
    takes_bind thenDy (takes_dy (parseType_takes _ _)) fun _ =>
      takes_map parseOptId_takes)

theorem parseSchema_takes : Takes .se ts (Sec.parseSchema ts) :=
  expect_plain thenSe fun _ => takes_bind thenSe parseId_takes fun _ => expect_open fun _ =>
    takes_map (parseUntilBrace_takes (fun _ => schemaColumn_takes) _ _)

theorem parseString_takes : Takes .dy ts (Sec.parseString ts) := by
  cases ts with
  | nil => exact takes_none
  | cons t ts =>
    simp only [Sec.parseString]
    split
    · rename_i hk
      exact takes_some (pl_one (plain_of_kind hk (by decide))).dy
    · exact takes_none

theorem parseNumber_takes : Takes .dy ts (Sec.parseNumber ts) := by
  cases ts with
  | nil => exact takes_none
  | cons t ts =>
    simp only [Sec.parseNumber]
    split
    · rename_i hk
      exact takes_some (pl_one (plain_of_kind hk (by decide))).dy
    · exact takes_none

theorem braces_takes {x : β} : Takes .dy ts ((Sec.parseBraces ts).map fun r => (x, r)) := by
  unfold Sec.parseBraces
  simp only [Option.map_bind, Function.comp_def]
  exact expect_plain thenPlDy fun _ => expect_openD fun _ => expect_close

theorem parseFileDetail_takes : Takes .dy ts (Sec.parseFileDetail ts) := by
  cases ts with
  | nil => exact takes_none
  | cons t ts =>
    have hn : ∀ (f : Str → Sec.FileDetail),
        Takes .dy ts (((expect .colon ts).bind Sec.parseNumber).map fun r => (f r.1, r.2)) := fun f =>
      takes_map (expect_plain thenPlDy fun _ => parseNumber_takes)
    have hs : ∀ (f : Str → Sec.FileDetail),
        Takes .dy ts (((expect .colon ts).bind Sec.parseString).map fun r => (f r.1, r.2)) := fun f =>
      takes_map (expect_plain thenPlDy fun _ => parseString_takes)
    have one : ∀ {γ : Type} {o : Option (γ × List Token)} {k : Tk}, t.kind = k → PlainKind k →
        Takes .dy ts o → Takes .dy (t :: ts) o := fun hk hp h =>
      takes_before thenPlDy (pl_one (plain_of_kind hk hp)) h
    simp only [Sec.parseFileDetail]
    split
    · exact one (by assumption) (by decide) (hn _)
    · exact one (by assumption) (by decide) (hn _)
    · exact one (by assumption) (by decide) (hn _)
    · exact one (by assumption) (by decide) braces_takes
    · exact one (by assumption) (by decide) braces_takes
    · exact one (by assumption) (by decide) (hs _)
    · exact one (by assumption) (by decide) (hs fun _ => .location)
    · exact one (by assumption) (by decide) (hs fun _ => .location)
    · exact one (by assumption) (by decide) (hs fun _ => .location)
    · exact takes_none

theorem parseFile_takes : Takes .dy ts (Sec.parseFile ts) :=
  expect_openD fun _ => takes_map (parseUntilBrace_takes (fun _ => parseFileDetail_takes) _ _)

theorem parseSourceDetail_takes {k : Tk} {p : List Token → Option (α × List Token)}
    (hp : ∀ ts, Takes .dy ts (p ts)) (hk : PlainKind k := by decide) :
    Takes .dy ts (Sec.parseSourceDetail k p ts) := by
  unfold Sec.parseSourceDetail
  split
  · rename_i hn
    exact takes_before thenPlDy (next_plain hn) (takes_map idDy)
  · exact parseAssigned_takes hp hk

theorem parseReadType_takes : Takes .se ts (Sec.parseReadType ts) := by
  cases ts with
  | nil => exact takes_none
  | cons t ts =>
    have one : ∀ {γ : Type} {o : Option (γ × List Token)} {k : Tk}, t.kind = k → PlainKind k →
        Takes .se ts o → Takes .se (t :: ts) o := fun hk hp h =>
      takes_before thenSe (pl_one (plain_of_kind hk hp)) h
    simp only [Sec.parseReadType]
    split
    · exact one (by assumption) (by decide) (takes_bind thenSe parseId_takes fun _ => expect_open fun _ =>
        takes_map (parseUntilBrace_takes
          (fun _ => parseSourceDetail_takes fun _ => parseFile_takes) _ _))
    · exact one (by assumption) (by decide) (takes_bind thenSe parseId_takes fun _ => expect_open fun _ =>
        takes_map (parseUntilBrace_takes
          (fun _ => parseSourceDetail_takes fun _ => parseString_takes) _ _))
    · exact one (by assumption) (by decide) (takes_bind thenSe parseId_takes fun _ => expect_open fun _ =>
        expect_close)
    · exact one (by assumption) (by decide) (takes_bind thenSe parseId_takes fun _ => expect_open fun _ =>
        expect_close)
    · exact takes_none

theorem parseSource_takes : Takes .se ts (Sec.parseSource ts) :=
  expect_plain thenSe fun _ => parseReadType_takes

theorem parseSpace_takes : Takes .se ts (Sec.parseSpace ts) :=
  expect_plain thenSe fun _ => takes_before thenSe uri_takes (expect_open fun _ =>
    takes_map (parseFunctions_takes _ _))

theorem parsePlanDetail_takes : Takes .se ts (Sec.parsePlanDetail ts) := by
  unfold Sec.parsePlanDetail
  split
  · exact takes_map parseRelation_takes
  · split
    · exact takes_map parseSection_takes
    · split
      · exact takes_map parseRoot_takes
      · split
        · exact takes_map parseSchema_takes
        · split
          · exact takes_map parseSource_takes
          · exact takes_map parseSpace_takes

end Verif.Braces
