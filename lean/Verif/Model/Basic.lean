/-!
# Basic vocabulary of the model

Strings are lists of characters: a `Char` below 256 stands for one byte of a
`std::string`.  The character functions are those of the `"C"` locale.
-/

namespace Verif

/-- A `std::string` / `std::string_view`: a finite sequence of bytes. -/
abbrev Str := List Char

/-- The kinds of C++ exception the modelled code can raise. -/
inductive Exc where
  /-- `SUBSTRAIT_UNSUPPORTED` (include/substrait/common/Exceptions.h). -/
  | unsupported
  /-- `SUBSTRAIT_FAIL` (include/substrait/common/Exceptions.h). -/
  | fail
  /-- `std::out_of_range`. -/
  | outOfRange
  /-- `std::invalid_argument`. -/
  | invalidArgument
  /-- `std::bad_any_cast`, `YAML::Exception` and other library exceptions. -/
  | other
  deriving DecidableEq, Repr

/-- Result of running a C++ function: a normal return, an exception, or undefined
behaviour (out-of-range `operator[]`, null dereference, ...). -/
inductive Outcome (α : Type) where
  | ok (a : α)
  | throw (e : Exc)
  | ub
  deriving DecidableEq, Repr

namespace Outcome

/-- Sequencing: the first exception or undefined behaviour ends the run. -/
def bind {α β : Type} : Outcome α → (α → Outcome β) → Outcome β
  | ok a, f => f a
  | throw e, _ => throw e
  | ub, _ => ub

def map {α β : Type} (f : α → β) : Outcome α → Outcome β
  | ok a => ok (f a)
  | throw e => throw e
  | ub => ub

/-- Run `f` on the elements in order and collect the results. -/
def mapM {α β : Type} (f : α → Outcome β) : List α → Outcome (List β)
  | [] => ok []
  | a :: as => (f a).bind fun b => (mapM f as).bind fun bs => ok (b :: bs)

/-- `a && b` with C++ short-circuit evaluation. -/
def andThen (a : Outcome Bool) (b : Outcome Bool) : Outcome Bool :=
  a.bind fun x => if x then b else ok false

@[simp] theorem bind_ok {α β} (a : α) (f : α → Outcome β) : (ok a).bind f = f a := rfl
@[simp] theorem bind_throw {α β} (e) (f : α → Outcome β) : (throw e).bind f = throw e := rfl
@[simp] theorem bind_ub {α β} (f : α → Outcome β) : (ub : Outcome α).bind f = ub := rfl
@[simp] theorem map_ok {α β} (a : α) (f : α → β) : (ok a).map f = ok (f a) := rfl
@[simp] theorem map_throw {α β} (e) (f : α → β) : (throw e : Outcome α).map f = throw e := rfl
@[simp] theorem map_ub {α β} (f : α → β) : (ub : Outcome α).map f = ub := rfl
@[simp] theorem mapM_nil {α β} (f : α → Outcome β) : mapM f [] = ok [] := rfl
@[simp] theorem mapM_cons {α β} (f : α → Outcome β) (a as) :
    mapM f (a :: as) = (f a).bind fun b => (mapM f as).bind fun bs => ok (b :: bs) := rfl

theorem mapM_congr {α β} {f g : α → Outcome β} {l : List α} (h : ∀ a ∈ l, f a = g a) :
    mapM f l = mapM g l := by
  induction l with
  | nil => rfl
  | cons a as ih =>
    simp only [mapM_cons]
    rw [h a (by simp), ih (fun b hb => h b (by simp [hb]))]

end Outcome

/-- `std::isdigit` in the `"C"` locale. -/
def isDigit (c : Char) : Bool := 48 ≤ c.toNat && c.toNat ≤ 57

/-- `std::tolower` in the `"C"` locale. -/
def toLower (c : Char) : Char :=
  if 65 ≤ c.toNat && c.toNat ≤ 90 then Char.ofNat (c.toNat + 32) else c

/-- Value of a numeral, most significant digit first. -/
def digitsVal (s : Str) : Nat := s.foldl (fun acc c => 10 * acc + (c.toNat - 48)) 0

/-- Decimal text of a natural number, as `std::ostream << unsigned`. -/
def natText (n : Nat) : Str := Nat.toDigits 10 n

/-- Decimal text of an integer, as `std::ostream << int`. -/
def intText : Int → Str
  | .ofNat n => natText n
  | .negSucc n => '-' :: natText (n + 1)

/-- Position of the first `c`, as `std::string::find(char)`; `none` is `npos`. -/
def findFirst (c : Char) : Str → Option Nat
  | [] => none
  | d :: ds => if d = c then some 0 else (findFirst c ds).map (· + 1)

/-- Position of the last `c`, as `std::string::rfind(char)` and `find_last_of(char)`;
`none` is `npos`. -/
def findLast (c : Char) : Str → Option Nat
  | [] => none
  | d :: ds =>
    match findLast c ds with
    | some i => some (i + 1)
    | none => if d = c then some 0 else none

end Verif
