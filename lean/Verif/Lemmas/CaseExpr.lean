import Verif.Lemmas.CaseType
import Verif.Lemmas.CasePlan

/-!
Expressions are read without looking at the case of letters in keywords and types.
-/

namespace Verif.Tree

open Verif Lex Case

theorem optText_low (lead : Str) (h : lowS lead = lead) (t : Option TypeTree) :
    optText lead (t.map TypeTree.low) = lowS (optText lead t) := by
  cases t with
  | none => rfl
  | some t => simp only [optText, Option.map_some, lowS_append, h, TypeTree.low_text]

theorem pairTexts_low (ks vs : List Str) : (pairTexts ks vs).map lowS = pairTexts (ks.map lowS) (vs.map lowS) := by
  induction ks generalizing vs with
  | nil => rfl
  | cons k ks ih =>
    cases vs with
    | nil => rfl
    | cons v vs =>
      simp only [pairTexts, List.map_cons, ih, lowS_append, lowS_cons]
      rfl

mutual
theorem ConstTree.low_text : ∀ c : ConstTree, c.low.text = lowS c.text
  | .number t ty => by simp only [ConstTree.low, ConstTree.text, lowS_append, optText_low ['_'] rfl]
  | .string t ty => by simp only [ConstTree.low, ConstTree.text, lowS_append, optText_low ['_'] rfl]
  | .mapLit ks vs ty => by
    simp only [ConstTree.low, ConstTree.text, lowS_append, optText_low ['_'] rfl, lowS_cons, commaText_low,
      pairTexts_low, ConstTree.low_texts ks, ConstTree.low_texts vs]
    rfl
  | .structLit cs ty => by
    simp only [ConstTree.low, ConstTree.text, lowS_append, optText_low ['_'] rfl, lowS_cons, commaText_low,
      ConstTree.low_texts cs]
    rfl
  | .null t ty => by simp only [ConstTree.low, ConstTree.text, lowS_append, optText_low ['_'] rfl]
  | .bool _ t ty => by simp only [ConstTree.low, ConstTree.text, lowS_append, optText_low ['_'] rfl]
theorem ConstTree.low_texts : ∀ cs : List ConstTree, ConstTree.texts (ConstTree.lowL cs) = (ConstTree.texts cs).map lowS
  | [] => rfl
  | c :: cs => by
    simp only [ConstTree.lowL, ConstTree.texts, List.map_cons, ConstTree.low_text c, ConstTree.low_texts cs]
end

theorem RelRef.low_text (r : RelRef) : r.low.text = lowS r.text := by
  obtain ⟨id, s⟩ := r
  cases s with
  | none => simp only [RelRef.low, RelRef.text, Option.map_none, lowS_append, lowS_nil]
  | some p =>
    simp only [RelRef.low, RelRef.text, Option.map_some, lowS_append, lowS_cons, lowS_nil]
    rfl

theorem argTexts_low (ts : List Str) (cs : List Bool) : argTexts (ts.map lowS) cs = lowS (argTexts ts cs) := by
  induction ts generalizing cs with
  | nil => rfl
  | cons t ts ih =>
    cases cs with
    | nil => rfl
    | cons c cs => simp only [List.map_cons, argTexts, lowS_append, optComma_low, ih]

mutual
theorem ExprTree.low_text : ∀ e : ExprTree, e.low.text = lowS e.text
  | .call id args cs ty => by
    simp only [ExprTree.low, ExprTree.text, lowS_append, lowS_cons, optText_low "->".toList rfl,
      ExprTree.low_texts args, argTexts_low]
    rfl
  | .const c => by simp only [ExprTree.low, ExprTree.text, ConstTree.low_text]
  | .column s id => by
    cases s with
    | none => simp only [ExprTree.low, ExprTree.text, Option.map_none, lowS_append, lowS_nil]
    | some s =>
      simp only [ExprTree.low, ExprTree.text, Option.map_some, lowS_append, lowS_cons, lowS_nil]
      rfl
  | .cast e kw ty => by
    simp only [ExprTree.low, ExprTree.text, lowS_append, TypeTree.low_text, ExprTree.low_text e]
  | .scalarSubquery kw r => by simp only [ExprTree.low, ExprTree.text, lowS_append, RelRef.low_text]
  | .inSubquery es kw r => by
    simp only [ExprTree.low, ExprTree.text, lowS_append, lowS_cons, RelRef.low_text, commaText_low,
      ExprTree.low_texts es]
    rfl
  | .setPredicate x kw r => by simp only [ExprTree.low, ExprTree.text, lowS_append, RelRef.low_text]
  | .setComparison e op a kw r => by
    simp only [ExprTree.low, ExprTree.text, lowS_append, RelRef.low_text, ExprTree.low_text e]
theorem ExprTree.low_texts : ∀ es : List ExprTree, ExprTree.texts (ExprTree.lowL es) = (ExprTree.texts es).map lowS
  | [] => rfl
  | e :: es => by
    simp only [ExprTree.lowL, ExprTree.texts, List.map_cons, ExprTree.low_text e, ExprTree.low_texts es]
end

end Verif.Tree

namespace Verif.Case

open Verif Lex Tree

/-! ## Texts put back -/

mutual
/-- A type with other texts. -/
def fillT : TypeTree → List Str → TypeTree × List Str
  | .absent, w => (.absent, w)
  | .basic _ q ns, w => (.basic (w.headD []) q (w.tail.take ns.length), w.tail.drop ns.length)
  | .list _ q e, w => (.list (w.headD []) q (fillT e w.tail).1, (fillT e w.tail).2)
  | .map _ q k c v, w =>
    (.map (w.headD []) q (fillT k w.tail).1 c (fillT v (fillT k w.tail).2).1, (fillT v (fillT k w.tail).2).2)
  | .struct _ q items, w => (.struct (w.headD []) q (fillTs items w.tail).1, (fillTs items w.tail).2)
def fillTs : List TypeTree → List Str → List TypeTree × List Str
  | [], w => ([], w)
  | t :: ts, w => ((fillT t w).1 :: (fillTs ts (fillT t w).2).1, (fillTs ts (fillT t w).2).2)
end

mutual
theorem fillT_words : ∀ (t : TypeTree) (r : List Str), fillT t.low (wordsT t ++ r) = (t, r)
  | .absent, r => by simp [TypeTree.low, wordsT, fillT]
  | .basic id q ns, r => by simp [TypeTree.low, wordsT, fillT]
  | .list kw q e, r => by simp [TypeTree.low, wordsT, fillT, fillT_words e]
  | .map kw q k c v, r => by simp [TypeTree.low, wordsT, fillT, List.append_assoc, fillT_words k, fillT_words v]
  | .struct kw q items, r => by simp [TypeTree.low, wordsT, fillT, fillTs_words items]
theorem fillTs_words : ∀ (ts : List TypeTree) (r : List Str), fillTs (TypeTree.lowL ts) (wordsTs ts ++ r) = (ts, r)
  | [], r => by simp [TypeTree.lowL, wordsTs, fillTs]
  | t :: ts, r => by simp [TypeTree.lowL, wordsTs, fillTs, List.append_assoc, fillT_words t, fillTs_words ts]
end

/-- A type that may be absent, with other texts. -/
def fillOpt : Option TypeTree → List Str → Option TypeTree × List Str
  | none, w => (none, w)
  | some t, w => (some (fillT t w).1, (fillT t w).2)

@[simp] theorem fillOpt_words (t : Option TypeTree) (r : List Str) :
    fillOpt (t.map TypeTree.low) (wordsOpt t ++ r) = (t, r) := by
  cases t <;> simp [fillOpt, wordsOpt, fillT_words]

mutual
/-- A constant with other texts. -/
def fillC : ConstTree → List Str → ConstTree × List Str
  | .number _ ty, w => (.number (w.headD []) (fillOpt ty w.tail).1, (fillOpt ty w.tail).2)
  | .string _ ty, w => (.string (w.headD []) (fillOpt ty w.tail).1, (fillOpt ty w.tail).2)
  | .mapLit ks vs ty, w =>
    (.mapLit (fillCs ks w).1 (fillCs vs (fillCs ks w).2).1 (fillOpt ty (fillCs vs (fillCs ks w).2).2).1,
      (fillOpt ty (fillCs vs (fillCs ks w).2).2).2)
  | .structLit cs ty, w => (.structLit (fillCs cs w).1 (fillOpt ty (fillCs cs w).2).1, (fillOpt ty (fillCs cs w).2).2)
  | .null _ ty, w => (.null (w.headD []) (fillOpt ty w.tail).1, (fillOpt ty w.tail).2)
  | .bool b _ ty, w => (.bool b (w.headD []) (fillOpt ty w.tail).1, (fillOpt ty w.tail).2)
def fillCs : List ConstTree → List Str → List ConstTree × List Str
  | [], w => ([], w)
  | c :: cs, w => ((fillC c w).1 :: (fillCs cs (fillC c w).2).1, (fillCs cs (fillC c w).2).2)
end

mutual
theorem fillC_words : ∀ (c : ConstTree) (r : List Str), fillC c.low (wordsC c ++ r) = (c, r)
  | .number t ty, r => by simp [ConstTree.low, wordsC, fillC]
  | .string t ty, r => by simp [ConstTree.low, wordsC, fillC]
  | .mapLit ks vs ty, r => by
    simp [ConstTree.low, wordsC, fillC, List.append_assoc, fillCs_words ks, fillCs_words vs]
  | .structLit cs ty, r => by simp [ConstTree.low, wordsC, fillC, List.append_assoc, fillCs_words cs]
  | .null t ty, r => by simp [ConstTree.low, wordsC, fillC]
  | .bool b t ty, r => by simp [ConstTree.low, wordsC, fillC]
theorem fillCs_words : ∀ (cs : List ConstTree) (r : List Str), fillCs (ConstTree.lowL cs) (wordsCs cs ++ r) = (cs, r)
  | [], r => by simp [ConstTree.lowL, wordsCs, fillCs]
  | c :: cs, r => by simp [ConstTree.lowL, wordsCs, fillCs, List.append_assoc, fillC_words c, fillCs_words cs]
end

/-- A reference with other texts. -/
def fillR (r : RelRef) (w : List Str) : RelRef × List Str :=
  match r.schema with
  | none => (⟨w.headD [], none⟩, w.tail)
  | some _ => (⟨w.headD [], some (w.tail.headD [], w.tail.tail.headD [])⟩, w.tail.tail.tail)

@[simp] theorem fillR_words (x : RelRef) (r : List Str) : fillR x.low (wordsR x ++ r) = (x, r) := by
  obtain ⟨id, s⟩ := x
  cases s <;> simp [fillR, RelRef.low, wordsR]

/-- A name that may be absent, with another text. -/
def fillO : Option Str → List Str → Option Str × List Str
  | none, w => (none, w)
  | some _, w => (some (w.headD []), w.tail)

@[simp] theorem fillO_words (x : Option Str) (r : List Str) : fillO (x.map lowS) (x.toList ++ r) = (x, r) := by
  cases x <;> simp [fillO]

mutual
/-- An expression with other texts. -/
def fillE : ExprTree → List Str → ExprTree × List Str
  | .call _ args cs ty, w =>
    (.call (w.headD []) (fillEs args w.tail).1 cs (fillOpt ty (fillEs args w.tail).2).1,
      (fillOpt ty (fillEs args w.tail).2).2)
  | .const c, w => (.const (fillC c w).1, (fillC c w).2)
  | .column s _, w => (.column (fillO s w).1 ((fillO s w).2.headD []), (fillO s w).2.tail)
  | .cast e _ ty, w =>
    (.cast (fillE e w).1 ((fillE e w).2.headD []) (fillT ty (fillE e w).2.tail).1, (fillT ty (fillE e w).2.tail).2)
  | .scalarSubquery _ r, w => (.scalarSubquery (w.headD []) (fillR r w.tail).1, (fillR r w.tail).2)
  | .inSubquery es _ r, w =>
    (.inSubquery (fillEs es w).1 ((fillEs es w).2.headD []) (fillR r (fillEs es w).2.tail).1,
      (fillR r (fillEs es w).2.tail).2)
  | .setPredicate x _ r, w => (.setPredicate x (w.headD []) (fillR r w.tail).1, (fillR r w.tail).2)
  | .setComparison e _ a _ r, w =>
    (.setComparison (fillE e w).1 ((fillE e w).2.headD []) a ((fillE e w).2.tail.headD [])
      (fillR r (fillE e w).2.tail.tail).1, (fillR r (fillE e w).2.tail.tail).2)
def fillEs : List ExprTree → List Str → List ExprTree × List Str
  | [], w => ([], w)
  | e :: es, w => ((fillE e w).1 :: (fillEs es (fillE e w).2).1, (fillEs es (fillE e w).2).2)
end

mutual
theorem fillE_words : ∀ (e : ExprTree) (r : List Str), fillE e.low (wordsE e ++ r) = (e, r)
  | .call id args cs ty, r => by simp [ExprTree.low, wordsE, fillE, List.append_assoc, fillEs_words args]
  | .const c, r => by simp [ExprTree.low, wordsE, fillE, fillC_words]
  | .column s id, r => by simp [ExprTree.low, wordsE, fillE, List.append_assoc]
  | .cast e kw ty, r => by simp [ExprTree.low, wordsE, fillE, List.append_assoc, fillE_words e, fillT_words]
  | .scalarSubquery kw x, r => by simp [ExprTree.low, wordsE, fillE]
  | .inSubquery es kw x, r => by simp [ExprTree.low, wordsE, fillE, List.append_assoc, fillEs_words es]
  | .setPredicate x kw y, r => by simp [ExprTree.low, wordsE, fillE]
  | .setComparison e op a kw x, r => by simp [ExprTree.low, wordsE, fillE, List.append_assoc, fillE_words e]
theorem fillEs_words : ∀ (es : List ExprTree) (r : List Str), fillEs (ExprTree.lowL es) (wordsEs es ++ r) = (es, r)
  | [], r => by simp [ExprTree.lowL, wordsEs, fillEs]
  | e :: es, r => by simp [ExprTree.lowL, wordsEs, fillEs, List.append_assoc, fillE_words e, fillEs_words es]
end

/-! ## Trees in which only what is spelled keeps its letters -/

mutual
def bareC : ConstTree → ConstTree
  | .number t ty => .number t (ty.map TypeTree.low)
  | .string t ty => .string t (ty.map TypeTree.low)
  | .mapLit ks vs ty => .mapLit (bareCs ks) (bareCs vs) (ty.map TypeTree.low)
  | .structLit cs ty => .structLit (bareCs cs) (ty.map TypeTree.low)
  | .null t ty => .null (lowS t) (ty.map TypeTree.low)
  | .bool b t ty => .bool b (lowS t) (ty.map TypeTree.low)
def bareCs : List ConstTree → List ConstTree
  | [] => []
  | c :: cs => bareC c :: bareCs cs
end

mutual
def bareE : ExprTree → ExprTree
  | .call id args cs ty =>
    if Expr.isIfThen id then .call (lowS id) (bareEs args) cs (ty.map TypeTree.low)
    else .call id (bareArgs args) cs (ty.map TypeTree.low)
  | .const c => .const (bareC c)
  | .column s id => .column s id
  | .cast e kw ty => .cast (bareE e) (lowS kw) ty.low
  | .scalarSubquery kw r => .scalarSubquery (lowS kw) r
  | .inSubquery es kw r => .inSubquery (bareEs es) (lowS kw) r
  | .setPredicate x kw r => .setPredicate x (lowS kw) r
  | .setComparison e op a kw r => .setComparison (bareE e) (lowS op) a (lowS kw) r
def bareArgs : List ExprTree → List ExprTree
  | [] => []
  | e :: es => (if looksEnum e then e else bareE e) :: bareArgs es
def bareEs : List ExprTree → List ExprTree
  | [] => []
  | e :: es => bareE e :: bareEs es
end

mutual
/-- A constant in lower case with what is spelled. -/
def putC : ConstTree → List Str → ConstTree × List Str
  | .number _ ty, w => (.number (w.headD []) ty, w.tail)
  | .string _ ty, w => (.string (w.headD []) ty, w.tail)
  | .mapLit ks vs ty, w =>
    (.mapLit (putCs ks w).1 (putCs vs (putCs ks w).2).1 ty, (putCs vs (putCs ks w).2).2)
  | .structLit cs ty, w => (.structLit (putCs cs w).1 ty, (putCs cs w).2)
  | .null t ty, w => (.null t ty, w)
  | .bool b t ty, w => (.bool b t ty, w)
def putCs : List ConstTree → List Str → List ConstTree × List Str
  | [], w => ([], w)
  | c :: cs, w => ((putC c w).1 :: (putCs cs (putC c w).2).1, (putCs cs (putC c w).2).2)
end

mutual
theorem putC_spelled : ∀ (c : ConstTree) (r : List Str), putC c.low (spelledC c ++ r) = (bareC c, r)
  | .number t ty, r => by simp [ConstTree.low, spelledC, putC, bareC]
  | .string t ty, r => by simp [ConstTree.low, spelledC, putC, bareC]
  | .mapLit ks vs ty, r => by
    simp [ConstTree.low, spelledC, putC, bareC, List.append_assoc, putCs_spelled ks, putCs_spelled vs]
  | .structLit cs ty, r => by simp [ConstTree.low, spelledC, putC, bareC, List.append_assoc, putCs_spelled cs]
  | .null t ty, r => by simp [ConstTree.low, spelledC, putC, bareC]
  | .bool b t ty, r => by simp [ConstTree.low, spelledC, putC, bareC]
theorem putCs_spelled : ∀ (cs : List ConstTree) (r : List Str), putCs (ConstTree.lowL cs) (spelledCs cs ++ r) = (bareCs cs, r)
  | [], r => by simp [ConstTree.lowL, spelledCs, putCs, bareCs]
  | c :: cs, r => by
    simp [ConstTree.lowL, spelledCs, putCs, bareCs, List.append_assoc, putC_spelled c, putCs_spelled cs]
end

theorem isIfThen_low (id : Str) : Expr.isIfThen (lowS id) = Expr.isIfThen id := by
  show (lowS (lowS id) == _) = _
  rw [lowS_idem]
  rfl

theorem looksEnum_low (e : ExprTree) : looksEnum e.low = looksEnum e := by
  show StringManipulation.endsWith (lowS e.low.text) _ = _
  rw [ExprTree.low_text, lowS_idem]
  rfl

mutual
/-- An expression in lower case with what is spelled. -/
def putE : ExprTree → List Str → ExprTree × List Str
  | .call id args cs ty, w =>
    if Expr.isIfThen id then (.call id (putEs args w).1 cs ty, (putEs args w).2)
    else (.call (w.headD []) (putArgs args w.tail).1 cs ty, (putArgs args w.tail).2)
  | .const c, w => (.const (putC c w).1, (putC c w).2)
  | .column s _, w => (.column (fillO s w).1 ((fillO s w).2.headD []), (fillO s w).2.tail)
  | .cast e kw ty, w => (.cast (putE e w).1 kw ty, (putE e w).2)
  | .scalarSubquery kw r, w => (.scalarSubquery kw (fillR r w).1, (fillR r w).2)
  | .inSubquery es kw r, w =>
    (.inSubquery (putEs es w).1 kw (fillR r (putEs es w).2).1, (fillR r (putEs es w).2).2)
  | .setPredicate x kw r, w => (.setPredicate x kw (fillR r w).1, (fillR r w).2)
  | .setComparison e op a kw r, w =>
    (.setComparison (putE e w).1 op a kw (fillR r (putE e w).2).1, (fillR r (putE e w).2).2)
def putArgs : List ExprTree → List Str → List ExprTree × List Str
  | [], w => ([], w)
  | e :: es, w =>
    if looksEnum e then ((fillE e w).1 :: (putArgs es (fillE e w).2).1, (putArgs es (fillE e w).2).2)
    else ((putE e w).1 :: (putArgs es (putE e w).2).1, (putArgs es (putE e w).2).2)
def putEs : List ExprTree → List Str → List ExprTree × List Str
  | [], w => ([], w)
  | e :: es, w => ((putE e w).1 :: (putEs es (putE e w).2).1, (putEs es (putE e w).2).2)
end

mutual
theorem putE_spelled : ∀ (e : ExprTree) (r : List Str), putE e.low (spelledE e ++ r) = (bareE e, r)
  | .call id args cs ty, r => by
    by_cases h : Expr.isIfThen id = true
    · simp [ExprTree.low, spelledE, putE, bareE, isIfThen_low, h, putEs_spelled args]
    · simp [ExprTree.low, spelledE, putE, bareE, isIfThen_low, h, putArgs_spelled args]
  | .const c, r => by simp [ExprTree.low, spelledE, putE, bareE, putC_spelled]
  | .column s id, r => by simp [ExprTree.low, spelledE, putE, bareE, List.append_assoc]
  | .cast e kw ty, r => by simp [ExprTree.low, spelledE, putE, bareE, putE_spelled e]
  | .scalarSubquery kw x, r => by simp [ExprTree.low, spelledE, putE, bareE]
  | .inSubquery es kw x, r => by simp [ExprTree.low, spelledE, putE, bareE, List.append_assoc, putEs_spelled es]
  | .setPredicate x kw y, r => by simp [ExprTree.low, spelledE, putE, bareE]
  | .setComparison e op a kw x, r => by
    simp [ExprTree.low, spelledE, putE, bareE, List.append_assoc, putE_spelled e]
theorem putArgs_spelled : ∀ (es : List ExprTree) (r : List Str),
    putArgs (ExprTree.lowL es) (spelledArgs es ++ r) = (bareArgs es, r)
  | [], r => by simp [ExprTree.lowL, spelledArgs, putArgs, bareArgs]
  | e :: es, r => by
    by_cases h : looksEnum e = true
    · simp [ExprTree.lowL, spelledArgs, putArgs, bareArgs, looksEnum_low, h, fillE_words, List.append_assoc,
        putArgs_spelled es]
    · simp [ExprTree.lowL, spelledArgs, putArgs, bareArgs, looksEnum_low, h, List.append_assoc, putE_spelled e,
        putArgs_spelled es]
theorem putEs_spelled : ∀ (es : List ExprTree) (r : List Str),
    putEs (ExprTree.lowL es) (spelledEs es ++ r) = (bareEs es, r)
  | [], r => by simp [ExprTree.lowL, spelledEs, putEs, bareEs]
  | e :: es, r => by
    simp [ExprTree.lowL, spelledEs, putEs, bareEs, List.append_assoc, putE_spelled e, putEs_spelled es]
end

end Verif.Case
