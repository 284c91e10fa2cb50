import Verif.Lemmas.TypeText
import Verif.Spec.TypeSplit

/-! Helper lemmas for C02 - C04. -/

namespace Verif.Ty

open Verif StringUtils

/-! ## The comma scanner and the counting specification -/

/-- Signed nesting depth. -/
def depth (w : Str) : Int := (w.count '<' : Int) - w.count '>'

theorem balanced_iff_depth (w : Str) : Balanced w ↔ depth w = 0 := by
  unfold Balanced depth; omega

theorem depth_cons_lt (w : Str) : depth ('<' :: w) = depth w + 1 := by
  unfold depth
  rw [List.count_cons_self, List.count_cons_of_ne (by decide)]; omega

theorem depth_cons_gt (w : Str) : depth ('>' :: w) = depth w - 1 := by
  unfold depth
  rw [List.count_cons_self, List.count_cons_of_ne (by decide)]; omega

theorem depth_cons_other {c : Char} (h1 : c ≠ '<') (h2 : c ≠ '>') (w : Str) :
    depth (c :: w) = depth w := by
  unfold depth
  rw [List.count_cons_of_ne h1, List.count_cons_of_ne h2]

theorem depth_nil : depth [] = 0 := rfl

/-- The scanner stops at the first comma at depth `-cnt`. -/
theorem scanComma_some {s : Str} {cnt : Int} {i c : Nat} (h : scanComma s cnt i = some c) :
    ∃ a b, s = a ++ ',' :: b ∧ a.length + i = c ∧ cnt + depth a = 0 ∧
      ∀ a1 b1, a = a1 ++ ',' :: b1 → cnt + depth a1 ≠ 0 := by
  induction s generalizing cnt i with
  | nil => simp [scanComma] at h
  | cons d ds ih =>
    have hstep : ∀ cnt', (∀ w, depth (d :: w) + cnt = depth w + cnt') →
        (d = ',' → cnt ≠ 0) →
        scanComma ds cnt' (i + 1) = some c →
        ∃ a b, d :: ds = a ++ ',' :: b ∧ a.length + i = c ∧ cnt + depth a = 0 ∧
          ∀ a1 b1, a = a1 ++ ',' :: b1 → cnt + depth a1 ≠ 0 := by
      intro cnt' hd hne hs
      obtain ⟨a, b, rfl, hl, h0, hno⟩ := ih hs
      refine ⟨d :: a, b, rfl, by simp; omega, by have := hd a; omega, ?_⟩
      intro a1 b1 e
      cases a1 with
      | nil =>
        simp at e
        simp only [depth_nil]
        have := hne e.1; omega
      | cons x xs =>
        simp at e
        obtain ⟨rfl, e⟩ := e
        have h1 := hno xs b1 e
        have h2 := hd xs
        omega
    simp only [scanComma] at h
    split at h
    · rename_i hd; subst hd
      exact hstep (cnt + 1) (fun w => by rw [depth_cons_lt]; omega) (by simp) h
    · rename_i hd1
      split at h
      · rename_i hd; subst hd
        exact hstep (cnt - 1) (fun w => by rw [depth_cons_gt]; omega) (by simp) h
      · rename_i hd2
        split at h
        · rename_i hc
          obtain ⟨rfl, rfl⟩ := hc
          cases h
          exact ⟨[], ds, rfl, by simp, by simp [depth_nil], by simp⟩
        · rename_i hc
          exact hstep cnt (fun w => by rw [depth_cons_other hd1 hd2])
            (fun e h0 => hc ⟨h0, e⟩) h

theorem scanComma_none {s : Str} {cnt : Int} {i : Nat} (h : scanComma s cnt i = none) :
    ∀ a b, s = a ++ ',' :: b → cnt + depth a ≠ 0 := by
  induction s generalizing cnt i with
  | nil => intro a b e; simp at e
  | cons d ds ih =>
    have hstep : ∀ cnt', (∀ w, depth (d :: w) + cnt = depth w + cnt') →
        (d = ',' → cnt ≠ 0) → scanComma ds cnt' (i + 1) = none →
        ∀ a b, d :: ds = a ++ ',' :: b → cnt + depth a ≠ 0 := by
      intro cnt' hd hne hs a b e
      cases a with
      | nil =>
        simp at e
        simp only [depth_nil]
        have := hne e.1; omega
      | cons x xs =>
        simp at e
        obtain ⟨rfl, e⟩ := e
        have h1 := ih hs xs b e
        have h2 := hd xs
        omega
    simp only [scanComma] at h
    split at h
    · rename_i hd; subst hd
      exact hstep (cnt + 1) (fun w => by rw [depth_cons_lt]; omega) (by simp) h
    · rename_i hd1
      split at h
      · rename_i hd; subst hd
        exact hstep (cnt - 1) (fun w => by rw [depth_cons_gt]; omega) (by simp) h
      · rename_i hd2
        split at h
        · cases h
        · rename_i hc
          exact hstep cnt (fun w => by rw [depth_cons_other hd1 hd2])
            (fun e h0 => hc ⟨h0, e⟩) h

/-- The scanner finds a cut the specification asks for. -/
theorem scanComma_cut {w rest : Str} (hb : Balanced w) (hn : NoTopComma w) (i : Nat) :
    scanComma (w ++ ',' :: rest) 0 i = some (i + w.length) := by
  cases h : scanComma (w ++ ',' :: rest) 0 i with
  | none =>
    have := scanComma_none h w rest rfl
    rw [balanced_iff_depth] at hb; omega
  | some c =>
    obtain ⟨a, b, e, hl, h0, hno⟩ := scanComma_some h
    -- both cuts are first cuts, so they coincide
    rcases List.append_eq_append_iff.mp e with ⟨x, rfl, hx⟩ | ⟨x, rfl, hx⟩
    · cases x with
      | nil => simp at hl ⊢; omega
      | cons y ys =>
        simp at hx
        obtain ⟨rfl, rfl⟩ := hx
        have := hno w ys rfl
        rw [balanced_iff_depth] at hb; omega
    · cases x with
      | nil => simp at hl ⊢; omega
      | cons y ys =>
        simp at hx
        obtain ⟨rfl, _⟩ := hx
        have := hn a ys rfl
        rw [balanced_iff_depth] at this; omega

theorem scanComma_end {w : Str} (hn : NoTopComma w) (i : Nat) :
    scanComma (w ++ ['>']) 0 i = none := by
  cases h : scanComma (w ++ ['>']) 0 i with
  | none => rfl
  | some c =>
    obtain ⟨a, b, e, hl, h0, hno⟩ := scanComma_some h
    rcases List.append_eq_append_iff.mp e with ⟨x, rfl, hx⟩ | ⟨x, rfl, hx⟩
    · cases x <;> simp at hx
    · cases x with
      | nil => simp at hx
      | cons y ys =>
        simp at hx
        obtain ⟨rfl, _⟩ := hx
        have := hn a ys rfl
        rw [balanced_iff_depth] at this; omega

/-- The token loop on `pre ++ body ++ ">"` returns the specified pieces. -/
theorem tokens_split {ws : List Str} (hne : ws ≠ []) (hn : ∀ w ∈ ws, NoTopComma w)
    (hb : ∀ w ∈ ws.dropLast, Balanced w) : ∀ pre : Str,
    tokens (pre ++ commas ws ++ ['>']) (some (pre.length + (commas ws).length)) pre.length = ws := by
  induction ws with
  | nil => exact absurd rfl hne
  | cons w rest ih =>
    intro pre
    cases rest with
    | nil =>
      rw [tokens_eq]
      have : findNextComma (pre ++ commas [w] ++ ['>']) pre.length = none := by
        unfold findNextComma
        rw [List.append_assoc, List.drop_left]
        exact scanComma_end (hn w (by simp)) _
      rw [this]
      simp [substrTo, commas]
    | cons w2 rest =>
      have e : commas (w :: w2 :: rest) = w ++ ',' :: commas (w2 :: rest) := by simp [commas]
      rw [tokens_eq]
      have hc : findNextComma (pre ++ commas (w :: w2 :: rest) ++ ['>']) pre.length
          = some (pre.length + w.length) := by
        unfold findNextComma
        rw [List.append_assoc, List.drop_left, e, List.append_assoc, List.cons_append]
        exact scanComma_cut (hb w (by simp)) (hn w (by simp)) _
      rw [hc]
      simp only
      have hs : pre ++ commas (w :: w2 :: rest) ++ ['>'] =
          (pre ++ w ++ [',']) ++ commas (w2 :: rest) ++ ['>'] := by simp [e]
      have hl : pre.length + (commas (w :: w2 :: rest)).length =
          (pre ++ w ++ [',']).length + (commas (w2 :: rest)).length := by
        simp [e]; omega
      have hp : pre.length + w.length + 1 = (pre ++ w ++ [',']).length := by simp; omega
      have ht : ((pre ++ commas (w :: w2 :: rest) ++ ['>']).drop pre.length).take
          (pre.length + w.length - pre.length) = w := by
        rw [List.append_assoc, List.drop_left, e, List.append_assoc]
        have : pre.length + w.length - pre.length = w.length := by omega
        rw [this, List.take_left]
      rw [ht, hs, hl, hp, ih (by simp) (fun x hx => hn x (by simp [hx]))
        (fun x hx => hb x (by
          rw [List.dropLast_cons_of_ne_nil (by simp)]; simp [hx]))]

theorem exists_topSplit : ∀ (n : Nat) (body : Str), body.length ≤ n → ∃ ws, IsTopSplit body ws := by
  intro n
  induction n with
  | zero =>
    intro body h
    have : body = [] := List.length_eq_zero_iff.mp (by omega)
    subst this
    refine ⟨[[]], by simp, rfl, ?_, by simp⟩
    intro w hw a b e
    simp at hw; subst hw; simp at e
  | succ n ih =>
    intro body h
    cases hs : scanComma body 0 0 with
    | none =>
      refine ⟨[body], by simp, rfl, ?_, by simp⟩
      intro w hw a b e
      simp at hw; subst hw
      rw [balanced_iff_depth]
      have := scanComma_none hs a b e; omega
    | some c =>
      obtain ⟨a, b, rfl, _, h0, hno⟩ := scanComma_some hs
      have hlen : b.length ≤ n := by simp at h; omega
      obtain ⟨ws, hne, hj, hnc, hbal⟩ := ih b hlen
      obtain ⟨w2, rest, rfl⟩ : ∃ x xs, ws = x :: xs := by
        cases ws with
        | nil => exact absurd rfl hne
        | cons x xs => exact ⟨x, xs, rfl⟩
      refine ⟨a :: w2 :: rest, by simp, by rw [commas, hj], ?_, ?_⟩
      · intro w hw
        rcases List.mem_cons.mp hw with rfl | hw
        · intro a1 b1 e
          rw [balanced_iff_depth]
          have := hno a1 b1 e; omega
        · exact hnc w hw
      · intro w hw
        rw [List.dropLast_cons_of_ne_nil (by simp)] at hw
        rcases List.mem_cons.mp hw with rfl | hw
        · rw [balanced_iff_depth]; omega
        · exact hbal w hw

/-! ## Case folding -/

theorem scanComma_lower (s : Str) (cnt : Int) (i : Nat) :
    scanComma (s.map toLower) cnt i = scanComma s cnt i := by
  induction s generalizing cnt i with
  | nil => rfl
  | cons c cs ih =>
    simp only [List.map_cons, scanComma, toLower_eq_iff (c := c) (d := '<') (by decide) (by decide),
      toLower_eq_iff (c := c) (d := '>') (by decide) (by decide),
      toLower_eq_iff (c := c) (d := ',') (by decide) (by decide), ih]

theorem findNextComma_lower (s : Str) (i : Nat) :
    findNextComma (s.map toLower) i = findNextComma s i := by
  unfold findNextComma; rw [← List.map_drop, scanComma_lower]

theorem substrTo_lower (s : Str) (p : Nat) (r : Option Nat) :
    substrTo (s.map toLower) p r = (substrTo s p r).map toLower := by
  unfold substrTo
  split
  · split <;> simp
  · simp

theorem tokensF_lower (s : Str) (r : Option Nat) : ∀ (f prev : Nat),
    tokensF f (s.map toLower) r prev = (tokensF f s r prev).map (·.map toLower) := by
  intro f
  induction f with
  | zero => intro prev; rfl
  | succ f ih =>
    intro prev
    simp only [tokensF, findNextComma_lower]
    cases findNextComma s prev with
    | none => simp [substrTo_lower]
    | some c => simp [ih]

theorem tokens_lower (s : Str) (r : Option Nat) (prev : Nat) :
    tokens (s.map toLower) r prev = (tokens s r prev).map (·.map toLower) := by
  unfold tokens; rw [List.length_map, tokensF_lower]

theorem map_lower_lower (s : Str) : (s.map toLower).map toLower = s.map toLower := by
  simp [toLower_idem]

theorem bracketHead_lower (raw : Str) (left : Nat) :
    bracketHead (raw.map toLower) left = bracketHead raw left := by
  unfold bracketHead; rw [map_lower_lower]

theorem isDigit_toLower (c : Char) : isDigit (toLower c) = isDigit c := by
  rw [Bool.eq_iff_iff, isDigit_iff, isDigit_iff, toLower_toNat]
  split <;> omega

theorem isNonNeg_lower (s : Str) :
    NumberUtils.isNonNegativeInteger (s.map toLower) = NumberUtils.isNonNegativeInteger s := by
  unfold NumberUtils.isNonNegativeInteger
  have h1 : (s.map toLower).isEmpty = s.isEmpty := by cases s <;> rfl
  have h2 : (s.map toLower).all isDigit = s.all isDigit := by
    rw [List.all_map]; congr 1; funext c; exact isDigit_toLower c
  rw [h1, h2]

theorem isInteger_lower (s : Str) :
    NumberUtils.isInteger (s.map toLower) = NumberUtils.isInteger s := by
  unfold NumberUtils.isInteger
  rw [isNonNeg_lower]
  congr 1
  cases s with
  | nil => rfl
  | cons c cs =>
    have h := toLower_eq_iff (c := c) (d := '-') (by decide) (by decide)
    by_cases hc : c = '-'
    · subst hc
      have : toLower '-' = '-' := by decide
      simp only [List.map_cons, this, NumberUtils.isNegativeInteger, isNonNeg_lower]
    · have hc' : toLower c ≠ '-' := fun e => hc (h.mp e)
      have h1 : ∀ (d : Char) (l : Str), d ≠ '-' → NumberUtils.isNegativeInteger (d :: l) = false := by
        intro d l hd
        unfold NumberUtils.isNegativeInteger
        split
        · rename_i e; simp at e; exact absurd e.1 hd
        · rfl
      rw [List.map_cons, h1 _ _ hc', h1 _ _ hc]

theorem lower_of_digits {s : Str} (h : NumberUtils.isNonNegativeInteger s = true) :
    s.map toLower = s := by
  simp only [NumberUtils.isNonNegativeInteger, Bool.and_eq_true, List.all_eq_true] at h
  have : ∀ c ∈ s, toLower c = id c := by
    intro c hc
    have := (isDigit_iff c).mp (h.2 c hc)
    exact toLower_eq_self (by omega)
  rw [List.map_congr_left this]; simp

theorem decodeSimple_lower (raw : Str) :
    decodeSimple (raw.map toLower) = (decodeSimple raw).fold := by
  unfold decodeSimple
  simp only [map_lower_lower, isInteger_lower]
  cases scalarOfName
      (if (raw.map toLower).getLast? = some '?' then (raw.map toLower).dropLast
        else raw.map toLower) with
  | none => rfl
  | some k => rfl

theorem folds_eq (cs : List PType) : PType.folds cs = cs.map PType.fold := by
  induction cs with
  | nil => rfl
  | cons c cs ih => simp [PType.folds, ih]

theorem castType_fold (t : PType) : castType t.fold = (castType t).fold := by
  cases t <;> simp [PType.fold, castType]

theorem castLit_fold (t : PType) : castLit t.fold = (castLit t).fold := by
  cases t <;> simp [PType.fold, castLit]

/-- Case analysis on the literal cast. -/
theorem castLit_cases (t : PType) : castLit t = .null ∨ ∃ v w p, castLit t = .lit v w p := by
  cases t <;> simp [castLit]

theorem decodeLength_fold {pcls : PType → Bool → PType} {cls : Int → Bool → PType}
    (hp : ∀ l n, (pcls l n).fold = pcls l.fold n) (hc : ∀ l n, (cls l n).fold = cls l n)
    (p n : Bool) (ps : List PType) :
    decodeLength pcls cls p n (ps.map PType.fold) = (decodeLength pcls cls p n ps).map PType.fold := by
  cases ps with
  | nil => rfl
  | cons p0 rest =>
    simp only [List.map_cons, decodeLength, castLit_fold]
    cases p with
    | true => simp [hp]
    | false =>
      simp only [Bool.false_eq_true, if_false]
      rcases castLit_cases p0 with h | ⟨v, w, q, h⟩
      · rw [h]; rfl
      · rw [h]
        simp only [PType.fold, isNonNeg_lower]
        by_cases hv : NumberUtils.isNonNegativeInteger v = true
        · simp only [hv, if_true, lower_of_digits hv]
          cases stoi v <;> simp [hc]
        · simp [hv]

theorem decodeDecimal_fold (p n : Bool) (ps : List PType) :
    decodeDecimal p n (ps.map PType.fold) = (decodeDecimal p n ps).map PType.fold := by
  match ps with
  | [] => rfl
  | [_] => rfl
  | _ :: _ :: _ :: _ => rfl
  | [p0, p1] =>
    simp only [List.map_cons, List.map_nil, decodeDecimal, castLit_fold]
    cases p with
    | true => simp [PType.fold]
    | false =>
      simp only [Bool.false_eq_true, if_false]
      rcases castLit_cases p0 with h | ⟨v, w, q, h⟩
      · rw [h]; rfl
      · rw [h]
        simp only [PType.fold, isNonNeg_lower]
        by_cases hv : NumberUtils.isNonNegativeInteger v = true
        · simp only [hv, if_true, lower_of_digits hv]
          rcases castLit_cases p1 with h | ⟨v1, w1, q1, h⟩
          · rw [h]; rfl
          · rw [h]
            simp only [PType.fold, isNonNeg_lower]
            by_cases hv1 : NumberUtils.isNonNegativeInteger v1 = true
            · simp only [hv1, if_true, lower_of_digits hv1]
              cases stoi v <;> cases stoi v1 <;> simp [PType.fold]
            · simp [hv1]
        · simp [hv]

theorem decodeList_fold (p n : Bool) (ps : List PType) :
    decodeList p n (ps.map PType.fold) = (decodeList p n ps).map PType.fold := by
  cases ps with
  | nil => rfl
  | cons p0 rest => cases p <;> simp [decodeList, PType.fold, castType_fold]

theorem decodeMap_fold (p n : Bool) (ps : List PType) :
    decodeMap p n (ps.map PType.fold) = (decodeMap p n ps).map PType.fold := by
  match ps with
  | [] => cases p <;> rfl
  | [p0] => cases p <;> rfl
  | p0 :: p1 :: rest => cases p <;> simp [decodeMap, PType.fold, castType_fold]

theorem decodeStruct_fold (p n : Bool) (ps : List PType) :
    decodeStruct p n (ps.map PType.fold) = (decodeStruct p n ps).map PType.fold := by
  cases p <;> simp [decodeStruct, PType.fold, folds_eq, castType_fold]

theorem decodeByName_fold (base : Str) (p n : Bool) (ps : List PType) :
    decodeByName base p n (ps.map PType.fold) = (decodeByName base p n ps).map PType.fold := by
  unfold decodeByName
  split
  · exact decodeList_fold p n ps
  · split
    · exact decodeMap_fold p n ps
    · split
      · exact decodeStruct_fold p n ps
      · split
        · exact decodeDecimal_fold p n ps
        · split
          · exact decodeLength_fold (fun _ _ => rfl) (fun _ _ => rfl) p n ps
          · split
            · exact decodeLength_fold (fun _ _ => rfl) (fun _ _ => rfl) p n ps
            · split
              · exact decodeLength_fold (fun _ _ => rfl) (fun _ _ => rfl) p n ps
              · rfl

theorem mapM_map_fold {f : Str → Outcome PType} {ts : List Str}
    (h : ∀ t ∈ ts, f (t.map toLower) = (f t).map PType.fold) :
    Outcome.mapM f (ts.map (·.map toLower)) = (Outcome.mapM f ts).map (·.map PType.fold) := by
  induction ts with
  | nil => rfl
  | cons t ts ih =>
    simp only [List.map_cons, Outcome.mapM_cons]
    rw [h t (by simp), ih (fun u hu => h u (by simp [hu]))]
    cases f t <;> simp
    cases Outcome.mapM f ts <;> simp

theorem decode_lower (p : Bool) : ∀ (k : Nat) (s : Str), s.length < k →
    decode p (s.map toLower) = (decode p s).map PType.fold := by
  intro k
  induction k with
  | zero => intro s h; omega
  | succ k ih =>
    intro s hs
    rw [decode_eq, decode_eq, trim_map_toLower, findFirst_map_toLower (by decide) (by decide),
      findLast_map_toLower (by decide) (by decide)]
    cases hl : findFirst '<' (trim s) with
    | none => simp [decodeSimple_lower]
    | some left =>
      simp only [tokens_lower, bracketHead_lower]
      rw [mapM_map_fold]
      · cases Outcome.mapM (decode p) (tokens (trim s) (findLast '>' (trim s)) (left + 1)) with
        | ok ps => simp [decodeByName_fold]
        | throw e => rfl
        | ub => rfl
      · intro t ht
        have h1 := tokens_length ht
        have h2 := findFirst_lt hl
        have h3 := trim_length_le s
        exact ih t (by omega)

mutual
/-- An object whose folded form is a concrete type is that concrete type. -/
theorem eq_obj_of_fold : ∀ (t : CType) (u : PType), u.fold = t.obj → u = t.obj
  | .scalar k n, u, h => by cases u <;> simp_all [PType.fold, CType.obj]
  | .decimal p s n, u, h => by cases u <;> simp_all [PType.fold, CType.obj]
  | .fixedBinary l n, u, h => by cases u <;> simp_all [PType.fold, CType.obj]
  | .fixedChar l n, u, h => by cases u <;> simp_all [PType.fold, CType.obj]
  | .varchar l n, u, h => by cases u <;> simp_all [PType.fold, CType.obj]
  | .list e n, u, h => by
    cases u with
    | list e' n' =>
      simp only [PType.fold, CType.obj, PType.list.injEq] at h ⊢
      exact ⟨eq_obj_of_fold e e' h.1, h.2⟩
    | _ => simp [PType.fold, CType.obj] at h
  | .struct cs n, u, h => by
    cases u with
    | struct cs' n' =>
      simp only [PType.fold, CType.obj, PType.struct.injEq] at h ⊢
      exact ⟨eq_objs_of_folds cs cs' h.1, h.2⟩
    | _ => simp [PType.fold, CType.obj] at h
  | .map k v n, u, h => by
    cases u with
    | map k' v' n' =>
      simp only [PType.fold, CType.obj, PType.map.injEq] at h ⊢
      exact ⟨eq_obj_of_fold k k' h.1, eq_obj_of_fold v v' h.2.1, h.2.2⟩
    | _ => simp [PType.fold, CType.obj] at h
theorem eq_objs_of_folds : ∀ (cs : List CType) (us : List PType),
    PType.folds us = CType.objs cs → us = CType.objs cs
  | [], us, h => by cases us <;> simp_all [PType.folds, CType.objs]
  | c :: cs, us, h => by
    cases us with
    | nil => simp [PType.folds, CType.objs] at h
    | cons u us =>
      simp only [PType.folds, CType.objs, List.cons.injEq] at h ⊢
      exact ⟨eq_obj_of_fold c u h.1, eq_objs_of_folds cs us h.2⟩
end

mutual
theorem fold_obj : ∀ t : CType, t.obj.fold = t.obj
  | .scalar k n => rfl
  | .decimal p s n => rfl
  | .fixedBinary l n => rfl
  | .fixedChar l n => rfl
  | .varchar l n => rfl
  | .list e n => by simp only [CType.obj, PType.fold, fold_obj e]
  | .struct cs n => by simp only [CType.obj, PType.fold, folds_objs cs]
  | .map k v n => by simp only [CType.obj, PType.fold, fold_obj k, fold_obj v]
theorem folds_objs : ∀ cs : List CType, PType.folds (CType.objs cs) = CType.objs cs
  | [] => rfl
  | c :: cs => by simp only [CType.objs, PType.folds, fold_obj c, folds_objs cs]
end

/-! ## Undefined behaviour -/

theorem mapM_ne_ub {α β} {f : α → Outcome β} {l : List α} (h : ∀ a ∈ l, f a ≠ .ub) :
    Outcome.mapM f l ≠ .ub := by
  induction l with
  | nil => simp
  | cons a as ih =>
    simp only [Outcome.mapM_cons]
    have h1 := h a (by simp)
    have h2 := ih (fun b hb => h b (by simp [hb]))
    cases hf : f a with
    | ub => exact absurd hf h1
    | throw e => simp
    | ok b =>
      cases hm : Outcome.mapM f as with
      | ub => exact absurd hm h2
      | throw e => simp
      | ok bs => simp

theorem mapM_length {α β} {f : α → Outcome β} {l : List α} {bs : List β}
    (h : Outcome.mapM f l = .ok bs) : bs.length = l.length := by
  induction l generalizing bs with
  | nil => simp at h; subst h; rfl
  | cons a as ih =>
    simp only [Outcome.mapM_cons] at h
    cases hf : f a with
    | ub => simp [hf] at h
    | throw e => simp [hf] at h
    | ok b =>
      cases hm : Outcome.mapM f as with
      | ub => simp [hf, hm] at h
      | throw e => simp [hf, hm] at h
      | ok bs' =>
        simp [hf, hm] at h; subst h
        simp [ih hm]

theorem decodeByName_param_ne_ub (base : Str) (n : Bool) {ps : List PType} (h : ps ≠ []) :
    decodeByName base true n ps ≠ .ub := by
  obtain ⟨p0, rest, rfl⟩ : ∃ x xs, ps = x :: xs := by
    cases ps with
    | nil => exact absurd rfl h
    | cons x xs => exact ⟨x, xs, rfl⟩
  unfold decodeByName
  split
  · simp [decodeList]
  · split
    · cases rest <;> simp [decodeMap]
    · split
      · simp [decodeStruct]
      · split
        · match rest with
          | [] => simp [decodeDecimal]
          | [_] => simp [decodeDecimal]
          | _ :: _ :: _ => simp [decodeDecimal]
        · split
          · simp [decodeLength]
          · split
            · simp [decodeLength]
            · split
              · simp [decodeLength]
              · simp

theorem decode_param_ne_ub : ∀ (k : Nat) (s : Str), s.length < k → decode true s ≠ .ub := by
  intro k
  induction k with
  | zero => intro s h; omega
  | succ k ih =>
    intro s hs
    rw [decode_eq]
    cases hl : findFirst '<' (trim s) with
    | none => simp
    | some left =>
      simp only
      have h2 := findFirst_lt hl
      have h3 := trim_length_le s
      have hm : Outcome.mapM (decode true) (tokens (trim s) (findLast '>' (trim s)) (left + 1)) ≠ .ub :=
        mapM_ne_ub fun t ht => ih t (by have := tokens_length ht; omega)
      cases hr : Outcome.mapM (decode true) (tokens (trim s) (findLast '>' (trim s)) (left + 1)) with
      | ub => exact absurd hr hm
      | throw e => simp
      | ok ps =>
        have hlen := mapM_length hr
        have hne : ps ≠ [] := by
          intro e; subst e
          exact tokens_ne_nil _ _ _ (List.length_eq_zero_iff.mp hlen.symm)
        exact decodeByName_param_ne_ub _ _ hne

end Verif.Ty
