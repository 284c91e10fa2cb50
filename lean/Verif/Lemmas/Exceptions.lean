import Verif.Spec.Exceptions
import Verif.Lemmas.TypeDecode

/-! # What exceptions say -/

namespace Verif.Fault

open Verif Verif.Ty

theorem vformat_plain : ∀ {s : Str}, NoBraces s → ∀ as, vformat s as = some s
  | [], _, _ => rfl
  | c :: s, h, as => by
    have h1 : c ≠ '{' := fun e => h.1 (e ▸ List.mem_cons_self)
    have h2 : c ≠ '}' := fun e => h.2 (e ▸ List.mem_cons_self)
    have hs : NoBraces s := ⟨fun m => h.1 (List.mem_cons_of_mem _ m),
      fun m => h.2 (List.mem_cons_of_mem _ m)⟩
    have e : vformat (c :: s) as = (vformat s as).map fun t => c :: t := by
      rw [vformat] <;> simp_all
    rw [e, vformat_plain hs as]
    rfl

/-- Without arguments, braces are refused or made fewer. -/
theorem vformat_shorter : ∀ {s t : Str}, vformat s [] = some t →
    t.length ≤ s.length ∧ (t.length = s.length → NoBraces s)
  | [], t, h => by
    simp only [vformat, Option.some.injEq] at h
    subst h
    exact ⟨Nat.le_refl _, fun _ => ⟨by simp, by simp⟩⟩
  | [c], t, h => by
    by_cases h1 : c = '{'
    · subst h1; simp [vformat] at h
    by_cases h2 : c = '}'
    · subst h2; simp [vformat] at h
    have : vformat [c] [] = some [c] :=
      vformat_plain ⟨by simp [Ne.symm h1], by simp [Ne.symm h2]⟩ []
    rw [this] at h
    cases h
    exact ⟨Nat.le_refl _, fun _ => ⟨by simp [Ne.symm h1], by simp [Ne.symm h2]⟩⟩
  | c :: d :: s, t, h => by
    by_cases h1 : c = '{'
    · subst h1
      by_cases h2 : d = '{'
      · subst h2
        simp only [vformat, Option.map_eq_some_iff] at h
        obtain ⟨u, hu, rfl⟩ := h
        have := vformat_shorter hu
        simp only [List.length_cons]
        exact ⟨by omega, by omega⟩
      · by_cases h3 : d = '}'
        · subst h3; simp [vformat] at h
        · rw [vformat] at h <;> simp_all
    · by_cases h2 : c = '}'
      · subst h2
        by_cases h3 : d = '}'
        · subst h3
          simp only [vformat, Option.map_eq_some_iff] at h
          obtain ⟨u, hu, rfl⟩ := h
          have := vformat_shorter hu
          simp only [List.length_cons]
          exact ⟨by omega, by omega⟩
        · rw [vformat] at h <;> simp_all
      · have e : vformat (c :: d :: s) [] = (vformat (d :: s) []).map fun t => c :: t := by
          rw [vformat] <;> simp_all
        rw [e, Option.map_eq_some_iff] at h
        obtain ⟨u, hu, rfl⟩ := h
        have := vformat_shorter hu
        simp only [List.length_cons] at this ⊢
        refine ⟨by omega, fun hl => ?_⟩
        have hn := this.2 (by omega)
        exact ⟨by simp only [List.mem_cons, not_or]; exact ⟨Ne.symm h1, by simpa using hn.1⟩,
          by simp only [List.mem_cons, not_or]; exact ⟨Ne.symm h2, by simpa using hn.2⟩⟩

/-! ## The same outcome as without messages -/

theorem all_kind {α β : Type} {f : α → Says β} {g : α → Outcome β} (h : ∀ a, (f a).kind = g a) :
    ∀ as, (Says.all f as).kind = Outcome.mapM g as
  | [] => rfl
  | a :: as => by
    have ih := all_kind h as
    rw [Says.all, Outcome.mapM, ← h a, ← ih]
    cases f a with
    | ok b => cases Says.all f as <;> rfl
    | raised r => rfl
    | ub => rfl

theorem unsupported_kind (fmt : Str) (args : List Str) : (unsupported fmt args).kind = .unsupported := by
  unfold unsupported raise
  split <;> rfl

theorem failure_kind (base : Str) (n : Nat) : (failure base n).kind = .fail := by
  unfold failure
  split
  · split <;> rfl
  · split <;> rfl

theorem decodeByName_throws {base : Str} {p n : Bool} {ps : List PType} {e : Exc}
    (h : decodeByName base p n ps = .throw e) :
    (e = .unsupported ∧ base ∉ compoundNames) ∨ e = .fail ∨ e = .outOfRange := by
  have hstoi : ∀ {v : Str} {x : Exc}, stoi v = .throw x → x = .outOfRange := by
    intro v x hv
    unfold stoi at hv
    split at hv <;> cases hv
    rfl
  have hlen : ∀ {pc : PType → Bool → PType} {c : Int → Bool → PType},
      decodeLength pc c p n ps = .throw e → e = .fail ∨ e = .outOfRange := by
    intro pc c hl
    unfold decodeLength at hl
    split at hl
    · split at hl
      · cases hl
      · split at hl
        · split at hl
          · cases hs : stoi _ <;> rw [hs] at hl <;> cases hl
            exact .inr (hstoi hs)
          · cases hl
            exact .inl rfl
        · cases hl
    · cases hl
  unfold decodeByName at h
  by_cases h1 : base = "list".toList
  · rw [if_pos h1] at h
    unfold decodeList at h
    split at h
    · split at h <;> cases h
    · cases h
  rw [if_neg h1] at h
  by_cases h2 : base = "map".toList
  · rw [if_pos h2] at h
    unfold decodeMap at h
    split at h <;> split at h <;> cases h
  rw [if_neg h2] at h
  by_cases h3 : base = "struct".toList
  · rw [if_pos h3] at h
    unfold decodeStruct at h
    split at h <;> cases h
  rw [if_neg h3] at h
  by_cases h4 : base = "decimal".toList
  · rw [if_pos h4] at h
    unfold decodeDecimal at h
    split at h
    · split at h
      · cases h
      · split at h
        · split at h
          · split at h
            · split at h
              · cases ha : stoi _ with
                | ok x =>
                  rw [ha] at h
                  simp only [Outcome.bind_ok] at h
                  cases hb : stoi _ <;> rw [hb] at h <;> cases h
                  exact .inr (.inr (hstoi hb))
                | throw x =>
                  rw [ha] at h
                  cases h
                  exact .inr (.inr (hstoi ha))
                | ub => rw [ha] at h; cases h
              · cases h
                exact .inr (.inl rfl)
            · cases h
          · cases h
            exact .inr (.inl rfl)
        · cases h
    · cases h
      exact .inr (.inl rfl)
  rw [if_neg h4] at h
  by_cases h5 : base = "varchar".toList
  · rw [if_pos h5] at h
    exact .inr (hlen h)
  rw [if_neg h5] at h
  by_cases h6 : base = "fixedchar".toList
  · rw [if_pos h6] at h
    exact .inr (hlen h)
  rw [if_neg h6] at h
  by_cases h7 : base = "fixedbinary".toList
  · rw [if_pos h7] at h
    exact .inr (hlen h)
  rw [if_neg h7] at h
  cases h
  refine .inl ⟨rfl, ?_⟩
  simp only [compoundNames, List.mem_cons, List.not_mem_nil, or_false, not_or]
  exact ⟨h1, h2, h3, h4, h5, h6, h7⟩

theorem byName_kind (raw base : Str) (p n : Bool) (ps : List PType) :
    (byName raw base p n ps).kind = decodeByName base p n ps := by
  unfold byName
  cases h : decodeByName base p n ps with
  | ok t => rfl
  | ub => rfl
  | throw e =>
    rcases decodeByName_throws h with ⟨rfl, -⟩ | rfl | rfl
    · simp only [Says.kind, unsupported_kind]
    · simp only [Says.kind, failure_kind]
    · rfl

theorem decodeF_kind : ∀ (fuel : Nat) (p : Bool) (v : Str),
    (decodeF fuel p v).kind = Ty.decodeF fuel p v
  | 0, _, _ => rfl
  | fuel + 1, p, v => by
    rw [decodeF, Ty.decodeF]
    simp only
    cases findFirst '<' (StringUtils.trim v) with
    | none => rfl
    | some left =>
      simp only
      rw [← all_kind (decodeF_kind fuel p)]
      cases Says.all (decodeF fuel p) _ with
      | ok ps => exact byName_kind _ _ _ _ _
      | raised r => rfl
      | ub => rfl

/-! ## Which part of the text is named -/

theorem ltrim_suffix : ∀ s : Str, StringUtils.ltrim s <:+ s
  | [] => List.suffix_refl _
  | c :: cs => by
    rw [StringUtils.ltrim]
    split
    · exact (ltrim_suffix cs).trans (List.suffix_cons _ _)
    · exact List.suffix_refl _

theorem rtrim_prefix : ∀ s : Str, StringUtils.rtrim s <+: s
  | [] => List.prefix_refl _
  | c :: cs => by
    have ih := rtrim_prefix cs
    rw [StringUtils.rtrim]
    split
    · split
      · exact List.nil_prefix
      · exact List.cons_prefix_cons.mpr ⟨rfl, List.nil_prefix⟩
    · next d ds e =>
      rw [e] at ih
      exact List.cons_prefix_cons.mpr ⟨rfl, ih⟩

theorem trim_infix (s : Str) : StringUtils.trim s <:+: s :=
  (rtrim_prefix _).isInfix.trans (ltrim_suffix s).isInfix

theorem tokensF_infix {s t : Str} {right : Option Nat} : ∀ {fuel prev : Nat},
    t ∈ tokensF fuel s right prev → t <:+: s
  | 0, _, h => nomatch h
  | fuel + 1, prev, h => by
    rw [tokensF] at h
    split at h
    · rcases List.mem_cons.mp h with rfl | h
      · exact (List.take_prefix _ _).isInfix.trans (List.drop_suffix _ _).isInfix
      · exact tokensF_infix h
    · rw [List.mem_singleton.mp h]
      unfold substrTo
      split
      · split
        · exact (List.take_prefix _ _).isInfix.trans (List.drop_suffix _ _).isInfix
        · exact (List.drop_suffix _ _).isInfix
      · exact (List.drop_suffix _ _).isInfix

theorem all_raised {α β : Type} {f : α → Says β} {r : Raised} : ∀ {as : List α},
    Says.all f as = .raised r → ∃ a ∈ as, f a = .raised r
  | [], h => by simp [Says.all] at h
  | a :: as, h => by
    rw [Says.all] at h
    cases ha : f a with
    | ok b =>
      rw [ha] at h
      simp only [Says.bind] at h
      cases hs : Says.all f as with
      | ok bs =>
        rw [hs] at h
        simp at h
      | raised r' =>
        rw [hs] at h
        simp only [Says.raised.injEq] at h
        obtain ⟨x, hx, e⟩ := all_raised hs
        exact ⟨x, List.mem_cons_of_mem _ hx, by rw [e, h]⟩
      | ub =>
        rw [hs] at h
        simp at h
    | raised r' =>
      rw [ha] at h
      simp only [Says.bind, Says.raised.injEq] at h
      exact ⟨a, List.mem_cons_self, by rw [ha, h]⟩
    | ub =>
      rw [ha] at h
      simp [Says.bind] at h

/-- The name of a text with parameters. -/
theorem unknown_of {raw : Str} {left : Nat} (h : findFirst '<' raw = some left)
    (hn : (bracketHead raw left).1 ∉ compoundNames) : Unknown raw := by
  obtain ⟨a, b, rfl, ha, rfl⟩ := findFirst_some h
  refine ⟨a, b, rfl, ha, fun hm => hn ?_⟩
  unfold bracketHead
  simp only
  have hlow : ∀ x ∈ compoundNames, x[x.length - 1]? ≠ some '?' := by decide
  have hq : ¬ (1 < a.length ∧ ((a ++ '<' :: b).map toLower)[a.length - 1]? = some '?') := by
    rintro ⟨h1, h2⟩
    refine hlow _ hm ?_
    rw [List.map_append, List.getElem?_append_left (by simp; omega)] at h2
    simpa using h2
  rw [if_neg (by simpa using hq)]
  have : ((a ++ '<' :: b).map toLower).take a.length = a.map toLower := by
    rw [List.map_append, ← List.length_map (f := toLower) (as := a), List.take_left]
  rw [this]
  exact hm

theorem byName_raised {raw base : Str} {p n : Bool} {ps : List PType} {r : Raised}
    (h : byName raw base p n ps = .raised r) :
    (base ∉ compoundNames ∧ r = unsupported ("Unsupported type: ".toList ++ raw) []) ∨
      r = failure base ps.length ∨ r = .outOfRange := by
  unfold byName at h
  cases hd : decodeByName base p n ps with
  | ok t => rw [hd] at h; simp at h
  | ub => rw [hd] at h; simp at h
  | throw e =>
    rw [hd] at h
    rcases decodeByName_throws hd with ⟨rfl, hb⟩ | rfl | rfl
    · simp only [Says.raised.injEq] at h
      exact .inl ⟨hb, h.symm⟩
    · simp only [Says.raised.injEq] at h
      exact .inr (.inl h.symm)
    · simp only [Says.raised.injEq] at h
      exact .inr (.inr h.symm)

theorem decodeF_raised : ∀ {fuel : Nat} {p : Bool} {v : Str} {r : Raised},
    decodeF fuel p v = .raised r →
    (∃ raw, raw <:+: v ∧ Unknown raw ∧ r = unsupported ("Unsupported type: ".toList ++ raw) []) ∨
      (∃ base n, r = failure base n) ∨ r = .outOfRange
  | 0, _, _, _, h => by simp [decodeF] at h
  | fuel + 1, p, v, r, h => by
    rw [decodeF] at h
    simp only at h
    cases hf : findFirst '<' (StringUtils.trim v) with
    | none => rw [hf] at h; simp at h
    | some left =>
      rw [hf] at h
      simp only at h
      cases ha : Says.all (decodeF fuel p) (tokens (StringUtils.trim v)
          (findLast '>' (StringUtils.trim v)) (left + 1)) with
      | ok ps =>
        rw [ha] at h
        rcases byName_raised h with ⟨hb, e⟩ | e | e
        · exact .inl ⟨_, trim_infix v, unknown_of hf hb, e⟩
        · exact .inr (.inl ⟨_, _, e⟩)
        · exact .inr (.inr e)
      | raised r' =>
        rw [ha] at h
        simp only [Says.bind, Says.raised.injEq] at h
        subst h
        obtain ⟨t, ht, e⟩ := all_raised ha
        rcases decodeF_raised e with ⟨raw, h1, h2, h3⟩ | h | h
        · exact .inl ⟨raw, h1.trans ((tokensF_infix ht).trans (trim_infix v)), h2, h3⟩
        · exact .inr (.inl h)
        · exact .inr (.inr h)
      | ub =>
        rw [ha] at h
        simp [Says.bind] at h

theorem infix_noBraces {s t : Str} (h : s <:+: t) (ht : NoBraces t) : NoBraces s :=
  ⟨fun m => ht.1 (h.subset m), fun m => ht.2 (h.subset m)⟩

theorem failure_reason (base : Str) (n : Nat) :
    ∃ reason, failure base n = .substrait false "INVALID_STATE".toList reason := by
  unfold failure
  split
  · split <;> exact ⟨_, rfl⟩
  · exact ⟨_, rfl⟩

end Verif.Fault
