import Verif.Spec.Extension
import Verif.Lemmas.Names

/-! # Sets of spaces, and the tokens of a functions section -/

namespace Verif.Ext

open Verif Lex Parse

/-- Induction from the end of a list. -/
theorem snoc_induction {α : Type} {P : List α → Prop} (h0 : P [])
    (h1 : ∀ l a, P l → P (l ++ [a])) (l : List α) : P l := by
  have : ∀ l : List α, P l.reverse := by
    intro l
    induction l with
    | nil => exact h0
    | cons a l ih => rw [List.reverse_cons]; exact h1 _ _ ih
  rw [← List.reverse_reverse l]; exact this _

/-! ## Sets of spaces -/

/-- `less` compares keys by a strict total order. -/
structure Order {κ : Type} (less : Nat → Nat → Bool) (key : Nat → κ) (lt : κ → κ → Bool) : Prop where
  via : ∀ a b, less a b = lt (key a) (key b)
  irrefl : ∀ x, lt x x = false
  trans : ∀ x y z, lt x y = true → lt y z = true → lt x z = true
  total : ∀ x y, lt x y = false → lt y x = false → x = y

section
variable {κ : Type} {less : Nat → Nat → Bool} {key : Nat → κ} {lt : κ → κ → Bool}

theorem setInsert_mem (x : Nat) : ∀ (s : List Nat) (y : Nat), y ∈ setInsert less x s → y = x ∨ y ∈ s
  | [], y, h => by simp [setInsert] at h; exact .inl h
  | z :: s, y, h => by
    simp only [setInsert] at h
    split at h
    · simpa using h
    · split at h
      · rcases List.mem_cons.mp h with h | h
        · exact .inr (by simp [h])
        · rcases setInsert_mem x s y h with h | h
          · exact .inl h
          · exact .inr (by simp [h])
      · exact .inr h

theorem mem_setInsert (x : Nat) : ∀ (s : List Nat) (y : Nat), y ∈ s → y ∈ setInsert less x s
  | [], y, h => by simp at h
  | z :: s, y, h => by
    simp only [setInsert]
    split
    · simp only [List.mem_cons] at h ⊢; exact .inr h
    · split
      · rcases List.mem_cons.mp h with h | h
        · simp [h]
        · exact List.mem_cons_of_mem _ (mem_setInsert x s y h)
      · exact h

theorem setInsert_key (o : Order less key lt) (x : Nat) : ∀ (s : List Nat),
    ∃ y ∈ setInsert less x s, key y = key x
  | [] => ⟨x, by simp [setInsert], rfl⟩
  | z :: s => by
    simp only [setInsert]
    split
    · exact ⟨x, by simp, rfl⟩
    · rename_i h1
      split
      · obtain ⟨y, hy, he⟩ := setInsert_key o x s
        exact ⟨y, List.mem_cons_of_mem _ hy, he⟩
      · rename_i h2
        rw [Bool.not_eq_true, o.via] at h1 h2
        exact ⟨z, by simp, o.total _ _ h2 h1⟩

theorem setInsert_sorted (o : Order less key lt) (x : Nat) : ∀ (s : List Nat),
    s.Pairwise (fun a b => less a b = true) →
    (setInsert less x s).Pairwise (fun a b => less a b = true)
  | [], _ => by simp [setInsert]
  | z :: s, h => by
    have h' := List.pairwise_cons.mp h
    simp only [setInsert]
    split
    · rename_i h1
      refine List.pairwise_cons.mpr ⟨?_, h⟩
      intro b hb
      rcases List.mem_cons.mp hb with rfl | hb
      · exact h1
      · have := h'.1 b hb
        rw [o.via] at *
        exact o.trans _ _ _ h1 this
    · split
      · rename_i h2
        refine List.pairwise_cons.mpr ⟨?_, setInsert_sorted o x s h'.2⟩
        intro b hb
        rcases setInsert_mem x s b hb with rfl | hb
        · exact h2
        · exact h'.1 b hb
      · exact h

/-- What a set holds after some insertions. -/
structure Held (key : Nat → κ) (less : Nat → Nat → Bool) (xs l : List Nat) : Prop where
  sorted : l.Pairwise fun a b => less a b = true
  from_ : ∀ y ∈ l, y ∈ xs
  all : ∀ x ∈ xs, ∃ y ∈ l, key y = key x

theorem held_step (o : Order less key lt) {xs l : List Nat} (h : Held key less xs l) (x : Nat) :
    Held key less (xs ++ [x]) (setInsert less x l) := by
  refine ⟨setInsert_sorted o x l h.sorted, ?_, ?_⟩
  · intro y hy
    rcases setInsert_mem x l y hy with rfl | hy
    · simp
    · simp [h.from_ y hy]
  · intro z hz
    rcases List.mem_append.mp hz with hz | hz
    · obtain ⟨y, hy, he⟩ := h.all z hz
      exact ⟨y, mem_setInsert x l y hy, he⟩
    · rw [List.mem_singleton] at hz
      subst hz
      exact setInsert_key o z l

theorem held_fold (o : Order less key lt) (xs : List Nat) :
    Held key less xs (xs.foldl (fun s x => setInsert less x s) []) := by
  induction xs using snoc_induction with
  | h0 => exact ⟨by simp, by simp, by simp⟩
  | h1 xs x ih => rw [List.foldl_append]; exact held_step o ih x

theorem Held.nodup (o : Order less key lt) {xs l : List Nat} (h : Held key less xs l) : l.Nodup := by
  refine h.sorted.imp ?_
  intro a b hab he
  subst he
  rw [o.via, o.irrefl] at hab
  exact absurd hab (by simp)

theorem Held.keys (o : Order less key lt) {xs l : List Nat} (h : Held key less xs l) :
    ∀ a ∈ l, ∀ b ∈ l, key a = key b → a = b := by
  have : ∀ (l : List Nat), l.Pairwise (fun a b => less a b = true) → ∀ a ∈ l, ∀ b ∈ l,
      key a = key b → a = b := by
    intro l hl
    induction hl with
    | nil => simp
    | cons hx _ ih =>
      intro a ha b hb he
      have no : ∀ x y, less x y = true → key x = key y → False := by
        intro x y h1 h2
        rw [o.via, h2, o.irrefl] at h1
        exact absurd h1 (by simp)
      rcases List.mem_cons.mp ha with h1 | h1 <;> rcases List.mem_cons.mp hb with h2 | h2
      · rw [h1, h2]
      · rw [h1] at he; exact (no _ _ (hx _ h2) he).elim
      · rw [h2] at he; exact (no _ _ (hx _ h1) he.symm).elim
      · exact ih a h1 b h2 he
  exact this l h.sorted

/-- The set holds everything exactly if the keys of different elements differ. -/
theorem Held.complete (o : Order less key lt) {xs l : List Nat} (h : Held key less xs l) :
    (∀ x ∈ xs, x ∈ l) ↔ ∀ x ∈ xs, ∀ y ∈ xs, key x = key y → x = y := by
  constructor
  · intro hall x hx y hy he
    exact h.keys o x (hall x hx) y (hall y hy) he
  · intro hd x hx
    obtain ⟨y, hy, he⟩ := h.all x hx
    rw [← hd y (h.from_ y hy) x hx he]
    exact hy
end

/-! ### The orders -/

theorem strLess_irrefl : ∀ s, strLess s s = false
  | [] => rfl
  | a :: s => by simp [strLess, strLess_irrefl s]

theorem strLess_trans : ∀ x y z, strLess x y = true → strLess y z = true → strLess x z = true
  | [], [], _, h, _ => by simp [strLess] at h
  | [], _ :: _, [], _, h => by simp [strLess] at h
  | [], _ :: _, _ :: _, _, _ => rfl
  | _ :: _, [], _, h, _ => by simp [strLess] at h
  | _ :: _, _ :: _, [], _, h => by simp [strLess] at h
  | a :: x, b :: y, c :: z, h1, h2 => by
    simp only [strLess] at *
    have ih := strLess_trans x y z
    by_cases hab : a.toNat < b.toNat
    · by_cases hbc : b.toNat < c.toNat
      · rw [if_pos (by omega)]
      · rw [if_neg hbc] at h2
        by_cases hcb : c.toNat < b.toNat
        · rw [if_pos hcb] at h2; simp at h2
        · rw [if_pos (by omega)]
    · rw [if_neg hab] at h1
      by_cases hba : b.toNat < a.toNat
      · rw [if_pos hba] at h1; simp at h1
      · rw [if_neg hba] at h1
        by_cases hbc : b.toNat < c.toNat
        · rw [if_pos (by omega)]
        · rw [if_neg hbc] at h2
          by_cases hcb : c.toNat < b.toNat
          · rw [if_pos hcb] at h2; simp at h2
          · rw [if_neg hcb] at h2
            rw [if_neg (by omega), if_neg (by omega)]
            exact ih h1 h2

theorem strLess_total : ∀ x y, strLess x y = false → strLess y x = false → x = y
  | [], [], _, _ => rfl
  | [], _ :: _, h, _ => by simp [strLess] at h
  | _ :: _, [], _, h => by simp [strLess] at h
  | a :: x, b :: y, h1, h2 => by
    simp only [strLess] at *
    by_cases hab : a.toNat < b.toNat
    · rw [if_pos hab] at h1; simp at h1
    · by_cases hba : b.toNat < a.toNat
      · rw [if_pos hba] at h2; simp at h2
      · rw [if_neg hab, if_neg hba] at h1
        rw [if_neg hba, if_neg hab] at h2
        have : a = b := Char.toNat_inj.mp (by omega)
        rw [this, strLess_total x y h1 h2]

/-- Names in order, no name before all. -/
def optLess : Option Str → Option Str → Bool
  | none, n => n.isSome
  | some _, none => false
  | some x, some y => strLess x y

theorem order_spaces (spaces : List SpaceSym) : Order (spaceLess spaces) (nameOf spaces) optLess where
  via a b := rfl
  irrefl x := by cases x <;> simp [optLess, strLess_irrefl]
  trans x y z h1 h2 := by
    cases x <;> cases y <;> cases z <;> simp_all [optLess]
    exact strLess_trans _ _ _ h1 h2
  total x y h1 h2 := by
    cases x <;> cases y <;> simp_all [optLess]
    exact strLess_total _ _ h1 h2

theorem order_nat : Order (fun a b => decide (a < b)) id (fun a b : Nat => decide (a < b)) where
  via _ _ := rfl
  irrefl x := by simp
  trans x y z h1 h2 := by simp at *; omega
  total x y h1 h2 := by simp at *; omega

/-! ## Lexing a functions section -/

/-- `lex`, starting in any mode. -/
def lexM (m : Mode) (s : Str) : Option (List Token) := lexF s.length m s

theorem lexM_step (m : Mode) (a rest : Str) (k : Tk) (hne : a ≠ [])
    (hm : lexOne m (a ++ rest) = some (k, a.length)) :
    lexM m (a ++ rest) = (lexM (nextMode m k) rest).map (seen k a ++ ·) := by
  cases a with
  | nil => exact absurd rfl hne
  | cons c a =>
    have hm' : lexOne m (c :: (a ++ rest)) = some (k, a.length + 1) := hm
    have hd : (c :: (a ++ rest)).drop (a.length + 1) = rest := by simp
    have ht : (c :: (a ++ rest)).take (a.length + 1) = c :: a := by simp
    show lexF (a ++ rest).length.succ m (c :: (a ++ rest)) = _
    simp only [lexF, hm', hd, ht]
    rw [lexF_fuel (a ++ rest).length rest.length _ rest (by simp) (by omega)]
    show _ = (lexF rest.length _ rest).map (seen k (c :: a) ++ ·)
    cases lexF rest.length (nextMode m k) rest with
    | none => rfl
    | some ts =>
      simp only [seen, Option.map_some]
      split <;> rfl

theorem pathLen_space (r : Str) : ∀ (b : Bool) (u : Str), pathLen b (u ++ ' ' :: r) = pathLen b u
  | b, [] => by simp [pathLen, isFileChar, isLetter, isDigit]
  | b, c :: u => by
    simp only [List.cons_append, pathLen]
    rw [pathLen_space r true u, pathLen_space r false u]

theorem takeWhile_space (p : Char → Bool) (hp : p ' ' = false) (r : Str) : ∀ (u : Str),
    (u ++ ' ' :: r).takeWhile p = u.takeWhile p
  | [] => by simp [hp]
  | c :: u => by
    simp only [List.cons_append, List.takeWhile_cons, takeWhile_space p hp r u]

theorem drop_takeWhile_space (p : Char → Bool) (r u : Str) :
    (u ++ ' ' :: r).drop (u.takeWhile p).length = u.drop (u.takeWhile p).length ++ ' ' :: r := by
  rw [List.drop_append_of_le_length (List.takeWhile_sublist p).length_le]

/-- The end of a URI after the host. -/
def hostTail (a h : Nat) (s : Str) : Nat :=
  match s with
  | '/' :: r' => if h = 0 ∨ pathLen false r' = 0 then 0 else a + h + 4 + pathLen false r'
  | _ => 0

/-- The end of a URI after the scheme. -/
def schemeTail (a : Nat) (s : Str) : Nat :=
  match s with
  | ':' :: '/' :: '/' :: r =>
    hostTail a (r.takeWhile isHostChar).length (r.drop (r.takeWhile isHostChar).length)
  | ':' :: r => if pathLen false r = 0 then 0 else a + 1 + pathLen false r
  | _ => 0

theorem schemeLen_eq (s : Str) : schemeLen s =
    if (s.takeWhile isLetter).length = 0 then 0
    else schemeTail (s.takeWhile isLetter).length (s.drop (s.takeWhile isLetter).length) := rfl

theorem hostTail_space (a h : Nat) (r : Str) : ∀ d, hostTail a h (d ++ ' ' :: r) = hostTail a h d
  | [] => by simp [hostTail]
  | c :: d => by
    by_cases hc : c = '/'
    · subst hc; simp only [hostTail, List.cons_append, pathLen_space]
    · simp [hostTail, hc]

theorem schemeTail_space (a : Nat) (d r : Str) : schemeTail a (d ++ ' ' :: r) = schemeTail a d := by
  rcases d with _ | ⟨c, d⟩
  · simp [schemeTail]
  · by_cases hc : c = ':'
    · subst hc
      by_cases hd : ∃ e, d = '/' :: '/' :: e
      · obtain ⟨e, rfl⟩ := hd
        simp only [schemeTail, List.cons_append]
        rw [takeWhile_space _ (by decide), drop_takeWhile_space, hostTail_space]
      · have h1 : ∀ e, d ++ ' ' :: r = '/' :: '/' :: e → False := by
          intro e he
          rcases d with _ | ⟨x, _ | ⟨y, d⟩⟩ <;> simp at he
          · exact hd ⟨d, by rw [he.1, he.2.1]⟩
        have h2 : ∀ e, d = '/' :: '/' :: e → False := fun e he => hd ⟨e, he⟩
        rw [List.cons_append, schemeTail, schemeTail, pathLen_space]
        · exact h2
        · exact h1
    · rw [List.cons_append, schemeTail, schemeTail] <;> simp [hc]

theorem schemeLen_space (u r : Str) : schemeLen (u ++ ' ' :: r) = schemeLen u := by
  rw [schemeLen_eq, schemeLen_eq, takeWhile_space _ (by decide), drop_takeWhile_space,
    schemeTail_space]

/-- The length of a URI without a scheme. -/
def plainLen (s : Str) : Nat :=
  match s with
  | '/' :: r => if pathLen false r = 0 then 0 else pathLen false r + 1
  | _ => pathLen false s

theorem uriRule_eq (s : Str) : uriRule s =
    if max (plainLen s) (schemeLen s) = 0 then none
    else some (.uri, max (plainLen s) (schemeLen s)) := rfl

theorem plainLen_space (u r : Str) : plainLen (u ++ ' ' :: r) = plainLen u := by
  rcases u with _ | ⟨c, u⟩
  · simp [plainLen, pathLen, isFileChar, isLetter, isDigit]
  · by_cases hc : c = '/'
    · subst hc; simp only [plainLen, List.cons_append, pathLen_space]
    · have := pathLen_space r false (c :: u)
      rw [List.cons_append] at this ⊢
      rw [plainLen, plainLen, this] <;> simp [hc]

/-- A URI in front of a space is the same URI. -/
theorem uriRule_space (u r : Str) : uriRule (u ++ ' ' :: r) = uriRule u := by
  rw [uriRule_eq, uriRule_eq, plainLen_space, schemeLen_space]

theorem longest_first (a : Match) (l : List (Option Match)) (h : ∀ m, some m ∈ l → m.2 ≤ a.2) :
    longest (some a :: l) = some a := by
  simp only [longest]
  cases hl : longest l with
  | none => rfl
  | some b =>
    have := h b (longest_mem _ _ hl)
    simp only
    rw [if_neg (by omega)]

theorem spaceRule_one (s : Str) (m : Match) (h : spaceRule s = some m) : m.2 = 1 := by
  unfold spaceRule at h
  split at h
  · split at h
    · simp at h; rw [← h]
    · simp at h
  · simp at h

theorem lexExtensions_uri (u r : Str) (h : IsUri u) :
    lexExtensions (u ++ ' ' :: r) = some (.uri, u.length) := by
  unfold lexExtensions
  rw [uriRule_space, h]
  have h1 : 1 ≤ u.length := uriRule_pos u _ h
  apply longest_first
  intro m hm
  simp only [List.mem_cons, List.not_mem_nil, or_false] at hm
  rcases hm with hm | hm
  · split at hm
    · simp at hm; subst hm; exact h1
    · simp at hm
  · rw [spaceRule_one _ m hm.symm]; exact h1

theorem uriRule_blank (r : Str) : uriRule (' ' :: r) = none := uriRule_space [] r

theorem uriRule_brace (r : Str) : uriRule ('{' :: r) = none := by
  have h1 : plainLen ('{' :: r) = 0 := by
    simp [plainLen, pathLen, isFileChar, isLetter, isDigit]
  have h2 : schemeLen ('{' :: r) = 0 := by
    rw [schemeLen_eq, if_pos]; simp [isLetter]
  rw [uriRule_eq, h1, h2]; rfl

theorem lexExtensions_blank (r : Str) : lexExtensions (' ' :: r) = some (.spaces, 1) := by
  unfold lexExtensions
  rw [uriRule_blank]; rfl

theorem lexExtensions_brace (r : Str) : lexExtensions ('{' :: r) = some (.leftBrace, 1) := by
  unfold lexExtensions
  rw [uriRule_brace]; rfl

/-- The first line of a block. -/
def headText : Option Str → Str
  | none => "extension_space {\n".toList
  | some uri => "extension_space ".toList ++ uri ++ " {\n".toList

/-- Its tokens. -/
def headToks : Option Str → List Token
  | none => [⟨.extensionSpace, "extension_space".toList⟩, ⟨.leftBrace, ['{']⟩]
  | some uri => [⟨.extensionSpace, "extension_space".toList⟩, ⟨.uri, uri⟩, ⟨.leftBrace, ['{']⟩]

theorem lexM_blank (r : Str) : lexM .extensions (' ' :: r) = lexM .extensions r := by
  have := lexM_step .extensions [' '] r .spaces (by simp) (lexExtensions_blank r)
  rw [List.singleton_append] at this
  rw [this]
  show (lexM .extensions r).map (fun x => [] ++ x) = _
  simp

theorem lexM_brace (r : Str) :
    lexM .extensions ("{\n".toList ++ r) = (lex r).map (⟨.leftBrace, ['{']⟩ :: ·) := by
  have h1 := lexM_step .extensions ['{'] ('\n' :: r) .leftBrace (by simp) (lexExtensions_brace _)
  have h2 : lexM .default ('\n' :: r) = lex r := by
    have := lexes_blank '\n' (.inr rfl) (fun _ => True) r trivial
    simp only [List.singleton_append] at this
    show lex ('\n' :: r) = _
    rw [this]; simp
  show lexM .extensions (['{'] ++ '\n' :: r) = _
  rw [h1]
  show (lexM .default ('\n' :: r)).map _ = _
  rw [h2]
  rfl

theorem lexes_head (u : Option Str) (h : ∀ x, u = some x → IsUri x) (ok : Str → Prop) :
    Lexes (headText u) (headToks u) ok := by
  intro rest _
  have hw : ∀ r, lex ("extension_space".toList ++ ' ' :: r) =
      (lexM .extensions r).map (⟨.extensionSpace, "extension_space".toList⟩ :: ·) := by
    intro r
    have hd : lexDefault ("extension_space".toList ++ ' ' :: r) = some (.extensionSpace, 15) := by
      have h1 := lexDefault_name 'e' "xtension_space".toList (' ' :: r) (.inl (by decide))
        (nameEnd_cons _ _ (by decide))
      have h2 : lexDefault ('e' :: "xtension_space".toList) = some (.extensionSpace, 15) := by
        decide +kernel
      rw [h2] at h1
      exact h1
    have hl : "extension_space".toList.length = 15 := by decide
    have h1 := lexM_step .default "extension_space".toList (' ' :: r) .extensionSpace (by simp)
      (by rw [hl]; unfold lexOne; exact hd)
    rw [show lex = lexM .default from rfl]
    rw [h1]
    show (lexM .extensions (' ' :: r)).map _ = _
    rw [lexM_blank]
    rfl
  cases u with
  | none =>
    have h1 := hw ("{\n".toList ++ rest)
    rw [lexM_brace] at h1
    show lex ("extension_space".toList ++ ' ' :: ("{\n".toList ++ rest)) = _
    rw [h1, Option.map_map]
    rfl
  | some x =>
    have h1 := hw (x ++ ' ' :: ("{\n".toList ++ rest))
    have h2 := lexM_step .extensions x (' ' :: ("{\n".toList ++ rest)) .uri (by
      rintro rfl
      exact absurd (uriRule_pos _ _ (h [] rfl)) (by simp)) (lexExtensions_uri x _ (h x rfl))
    have h3 : lexM (nextMode .extensions .uri) (' ' :: ("{\n".toList ++ rest)) =
        (lex rest).map (⟨.leftBrace, ['{']⟩ :: ·) := by
      show lexM .extensions _ = _
      rw [lexM_blank, lexM_brace]
    rw [h2, h3] at h1
    have e : headText (some x) ++ rest =
        "extension_space".toList ++ ' ' :: (x ++ ' ' :: ("{\n".toList ++ rest)) := by
      have e1 : "extension_space ".toList = "extension_space".toList ++ [' '] := by decide
      have e2 : " {\n".toList = ' ' :: "{\n".toList := by decide
      unfold headText
      rw [e1, e2]
      generalize "extension_space".toList = a
      generalize "{\n".toList = b
      simp
    rw [e, h1, Option.map_map, Option.map_map]
    rfl

/-- The tokens of a text. -/
def toksOf (s : Str) : List Token := (lex s).getD []

theorem IsName.name {s : Str} (h : IsName s) : Name s (toksOf s) := by
  obtain ⟨ts, h1, h2⟩ := h
  have : toksOf s = ts := by rw [toksOf, h1]; rfl
  rw [this]
  exact Name.of_parse h1 h2

theorem IsName.no_colon {s : Str} (h : IsName s) : ':' ∉ s := by
  intro hc
  have := h.name.chars ':' hc
  exact absurd this (by decide)

/-- The tokens of the name of a function. -/
def nameToks (n : Str) : List Token :=
  toksOf (shortName n) ++ ⟨.colon, [':']⟩ :: toksOf (n.drop ((shortName n).length + 1))

theorem shortName_append {i : Str} (h : ':' ∉ i) (g : Str) : shortName (i ++ ':' :: g) = i := by
  unfold shortName
  rw [findFirst_append h]
  simp

theorem nameToks_append {i : Str} (h : ':' ∉ i) (g : Str) :
    nameToks (i ++ ':' :: g) = toksOf i ++ ⟨.colon, [':']⟩ :: toksOf g := by
  unfold nameToks
  rw [shortName_append h, List.drop_append, List.drop_eq_nil_of_le (by omega)]
  simp

/-- The tokens of one line. -/
def lineToks (f : Str × Str) : List Token :=
  ⟨.function, "function".toList⟩ :: (nameToks f.2 ++
    ⟨.as, "as".toList⟩ :: (toksOf f.1 ++ [⟨.semicolon, [';']⟩]))

theorem lexes_word (w : Str) (c : Char) (s : Str) (k : Tk) (hw : w = c :: s) (hc : isLetter c = true)
    (h : lexDefault (c :: s) = some (k, s.length + 1)) (hk : k ≠ .extensionSpace)
    (hh : hidden k = false) : Lexes w [⟨k, w⟩] NameEnd := by
  subst hw
  intro rest hr
  rw [lex_step _ rest k (step_word c s rest k hc hr h hk), seen, hh]
  rfl

theorem lexes_functionName {n : Str} (h : IsFunctionName n) : Lexes n (nameToks n) NameEnd := by
  obtain ⟨i, g, rfl, hi, hg⟩ := h
  rw [nameToks_append hi.no_colon]
  have h1 := hi.name.lexes_
  have h2 : Lexes [':'] [⟨.colon, [':']⟩] (fun _ => True) :=
    lexes_sign ':' .colon (by simp [signs]) rfl _
  have h3 : Lexes g (toksOf g) NameEnd := by
    rcases hg with rfl | hg
    · exact Lexes.nil _
    · exact hg.name.lexes_
  exact Lexes.append h1 (Lexes.append h2 h3 (fun _ _ => trivial))
    (fun rest _ => nameEnd_cons _ _ (by decide))

theorem lexes_blank1 (ok : Str → Prop) : Lexes [' '] [] ok := lexes_blank ' ' (.inl rfl) ok

theorem lexes_line (f : Str × Str) (hs : IsName f.1) (hn : IsFunctionName f.2) (ok : Str → Prop) :
    Lexes (functionText f) (lineToks f) ok := by
  have e1 : "  function ".toList = [' '] ++ ([' '] ++ ("function".toList ++ [' '])) := by decide
  have e2 : " as ".toList = [' '] ++ ("as".toList ++ [' ']) := by decide
  have e3 : ";\n".toList = [';'] ++ ['\n'] := by decide
  have w1 : Lexes "function".toList [⟨.function, "function".toList⟩] NameEnd :=
    lexes_word _ 'f' "unction".toList .function (by decide) (by decide) (by decide +kernel)
      (by simp) rfl
  have w2 : Lexes "as".toList [⟨.as, "as".toList⟩] NameEnd :=
    lexes_word _ 'a' "s".toList .as (by decide) (by decide) (by decide +kernel) (by simp) rfl
  have hb : ∀ ok, Lexes [' '] [] ok := lexes_blank1
  have hsp : ∀ (b rest : Str), NameEnd (([' '] ++ b) ++ rest) := fun b rest =>
    nameEnd_cons _ _ (by decide)
  have s1 : Lexes ([';'] ++ ['\n']) [⟨.semicolon, [';']⟩] ok := by
    have := Lexes.append (lexes_sign ';' .semicolon (by simp [signs]) rfl (fun _ => True))
      (lexes_blank '\n' (.inr rfl) ok) (fun _ _ => trivial)
    simpa using this
  have s2 := Lexes.append hs.name.lexes_ s1 (fun rest _ => nameEnd_cons _ _ (by decide))
  have s3 := Lexes.append (hb (fun _ => True)) s2 (fun _ _ => trivial)
  have s4 := Lexes.append w2 s3 (fun rest _ => hsp _ rest)
  have s5 := Lexes.append (hb (fun _ => True)) s4 (fun _ _ => trivial)
  have s6 := Lexes.append (lexes_functionName hn) s5 (fun rest _ => hsp _ rest)
  have s7 := Lexes.append (hb (fun _ => True)) s6 (fun _ _ => trivial)
  have s8 := Lexes.append w1 s7 (fun rest _ => hsp _ rest)
  have s9 := Lexes.append (hb (fun _ => True)) s8 (fun _ _ => trivial)
  have s10 := Lexes.append (hb (fun _ => True)) s9 (fun _ _ => trivial)
  unfold functionText lineToks
  rw [e1, e2, e3]
  generalize "function".toList = a at *
  generalize "as".toList = b at *
  simpa using s10

/-- The tokens of a block. -/
def blockToks (b : Block) : List Token :=
  headToks b.uri ++ ((b.functions.map lineToks).flatten ++ [⟨.rightBrace, ['}']⟩])

/-- A block that the grammar can read. -/
structure Readable (b : Block) : Prop where
  uri : ∀ u, b.uri = some u → IsUri u
  symbols : ∀ f ∈ b.functions, IsName f.1
  names : ∀ f ∈ b.functions, IsFunctionName f.2

theorem blockText_eq (b : Block) : blockText b =
    headText b.uri ++ ((b.functions.map functionText).flatten ++ "}\n".toList) := by
  unfold blockText headText
  cases b.uri <;> simp only [List.append_assoc]

theorem lexes_lines : ∀ (fs : List (Str × Str)), (∀ f ∈ fs, IsName f.1) →
    (∀ f ∈ fs, IsFunctionName f.2) → ∀ ok,
    Lexes (fs.map functionText).flatten (fs.map lineToks).flatten ok
  | [], _, _, ok => Lexes.nil ok
  | f :: fs, h1, h2, ok => by
    have ih := lexes_lines fs (fun g hg => h1 g (by simp [hg])) (fun g hg => h2 g (by simp [hg])) ok
    simp only [List.map_cons, List.flatten_cons]
    exact Lexes.append (lexes_line f (h1 f (by simp)) (h2 f (by simp)) (fun _ => True)) ih
      (fun _ _ => trivial)

theorem lexes_block (b : Block) (h : Readable b) (ok : Str → Prop) :
    Lexes (blockText b) (blockToks b) ok := by
  rw [blockText_eq]
  have e : "}\n".toList = ['}'] ++ ['\n'] := by decide
  have s1 : Lexes (['}'] ++ ['\n']) ([⟨.rightBrace, ['}']⟩] ++ []) ok :=
    Lexes.append (lexes_sign '}' .rightBrace (by simp [signs]) rfl (fun _ => True))
      (lexes_blank '\n' (.inr rfl) ok) (fun _ _ => trivial)
  rw [e]
  exact Lexes.append (lexes_head b.uri h.uri (fun _ => True))
    (Lexes.append (lexes_lines b.functions h.symbols h.names (fun _ => True)) s1
      (fun _ _ => trivial)) (fun _ _ => trivial)

theorem lexes_section : ∀ (bs : List Block), (∀ b ∈ bs, Readable b) → ∀ ok,
    Lexes (sectionText bs) (bs.map blockToks).flatten ok
  | [], _, ok => Lexes.nil ok
  | [b], h, ok => by
    have := lexes_block b (h b (by simp)) ok
    simpa [sectionText] using this
  | b :: c :: bs, h, ok => by
    have ih := lexes_section (c :: bs) (fun x hx => h x (by simp [List.mem_cons.mp hx])) ok
    have h1 := lexes_block b (h b (by simp)) (fun _ => True)
    have h2 := Lexes.append (lexes_blank '\n' (.inr rfl) (fun _ => True)) ih (fun _ _ => trivial)
    exact Lexes.append h1 h2 (fun _ _ => trivial)

/-! ## Parsing a functions section -/

theorem nextIs_simple {t : Token} {r : List Token} (h : isSimpleId t.kind = true) :
    nextIs .underscore (t :: r) = false := by
  simp only [nextIs, decide_eq_false_iff_not]
  intro e; rw [e] at h; exact absurd h (by decide)

theorem parseName_toks {n : Str} (h : IsFunctionName n) (t : Token) (rest : List Token)
    (ht : t.kind = .as) : parseName (nameToks n ++ t :: rest) = some (n, t :: rest) := by
  obtain ⟨i, g, rfl, hi, hg⟩ := h
  rw [nameToks_append hi.no_colon]
  unfold parseName
  have hu : nextIs .underscore (t :: rest) = false := by simp [nextIs, ht]
  have h1 := hi.name.parse_append (⟨.colon, [':']⟩ :: toksOf g ++ t :: rest) (by simp [nextIs])
  rw [List.append_assoc, h1]
  simp only [Option.bind_some, List.cons_append, expect, if_true]
  rcases hg with rfl | hg
  · have : toksOf [] = [] := rfl
    rw [this]
    simp only [List.nil_append]
    rw [if_neg (by rw [ht]; decide)]
  · have h2 := hg.name.parse_append (t :: rest) hu
    obtain ⟨x, r, hx, hk⟩ := hg.name.head
    rw [hx, List.cons_append] at h2 ⊢
    simp only [hk, if_true, h2, Option.map_some]

theorem parseFunctions_toks : ∀ (fs : List (Str × Str)), (∀ f ∈ fs, IsName f.1) →
    (∀ f ∈ fs, IsFunctionName f.2) → ∀ (fuel : Nat) (rest : List Token), fs.length < fuel →
    parseFunctions fuel ((fs.map lineToks).flatten ++ ⟨.rightBrace, ['}']⟩ :: rest) =
      some (fs.map fun f => ⟨f.2, some f.1⟩, rest)
  | [], _, _, fuel, rest, hf => by
    obtain ⟨k, rfl⟩ := Nat.exists_eq_add_of_lt hf
    simp [parseFunctions, nextIs, expect]
  | f :: fs, h1, h2, fuel, rest, hf => by
    obtain ⟨k, rfl⟩ : ∃ k, fuel = k + 1 := ⟨fuel - 1, by simp at hf; omega⟩
    have ih := parseFunctions_toks fs (fun g hg => h1 g (by simp [hg]))
      (fun g hg => h2 g (by simp [hg])) k rest (by simp at hf; omega)
    have hs := h1 f (by simp)
    have hn := h2 f (by simp)
    simp only [List.map_cons, List.flatten_cons, lineToks, List.cons_append, List.append_assoc]
    rw [parseFunctions, if_pos (by simp [nextIs])]
    simp only [List.tail_cons]
    rw [parseName_toks hn _ _ rfl]
    simp only [Option.bind_some, parseAlias]
    rw [if_pos (by simp [nextIs])]
    simp only [List.tail_cons]
    rw [hs.name.parse_append _ (by simp [nextIs])]
    simp only [Option.map_some, Option.bind_some, List.nil_append, expect, if_true]
    rw [ih]
    rfl

/-- The tree of a block. -/
def treeOf (b : Block) : SpaceTree := ⟨b.uri, b.functions.map fun f => ⟨f.2, some f.1⟩⟩

theorem lines_length (fs : List (Str × Str)) : fs.length ≤ (fs.map lineToks).flatten.length := by
  induction fs with
  | nil => simp
  | cons f fs ih => simp only [List.map_cons, List.flatten_cons, List.length_append, lineToks,
      List.length_cons]; omega

theorem parseSpaces_toks : ∀ (bs : List Block), (∀ b ∈ bs, Readable b) → ∀ (fuel : Nat),
    bs.length < fuel → parseSpaces fuel (bs.map blockToks).flatten = some (bs.map treeOf)
  | [], _, fuel, hf => by
    obtain ⟨k, rfl⟩ := Nat.exists_eq_add_of_lt hf
    simp [parseSpaces]
  | b :: bs, h, fuel, hf => by
    obtain ⟨k, rfl⟩ : ∃ k, fuel = k + 1 := ⟨fuel - 1, by simp at hf; omega⟩
    have ih := parseSpaces_toks bs (fun x hx => h x (by simp [hx])) k (by simp at hf; omega)
    have hb := h b (by simp)
    have hl := lines_length b.functions
    have hp : ∀ rest fuel, b.functions.length < fuel → parseFunctions fuel
        ((b.functions.map lineToks).flatten ++ ⟨.rightBrace, ['}']⟩ :: rest) = _ :=
      fun rest fuel => parseFunctions_toks b.functions hb.symbols hb.names fuel rest
    simp only [List.map_cons, List.flatten_cons, blockToks, treeOf]
    cases hu : b.uri with
    | none =>
      simp only [headToks, List.cons_append, List.nil_append, List.append_assoc, parseSpaces,
        if_true, parseUri, expect, reduceCtorEq, if_false, Option.bind_some]
      rw [hp _ _ (by simp only [List.length_append]; omega)]
      simp [ih]
    | some u =>
      simp only [headToks, List.cons_append, List.nil_append, List.append_assoc, parseSpaces,
        if_true, parseUri, expect, Option.bind_some]
      rw [hp _ _ (by simp only [List.length_append]; omega)]
      simp [ih]

/-- The text of a section is read as its blocks. -/
theorem spacesOf_section (bs : List Block) (h : ∀ b ∈ bs, Readable b) :
    spacesOf (sectionText bs) = some (bs.map treeOf) := by
  have h1 := lexes_section bs h (fun _ => True) [] trivial
  have h2 : lex [] = some [] := by decide +kernel
  rw [List.append_nil, h2, Option.map_some, List.append_nil] at h1
  unfold spacesOf
  rw [h1, Option.bind_some]
  apply parseSpaces_toks bs h
  clear h h1
  induction bs with
  | nil => simp
  | cons b bs ih =>
    simp only [List.map_cons, List.flatten_cons, List.length_append, blockToks, List.length_cons] at *
    omega

end Verif.Ext
