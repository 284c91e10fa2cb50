import Verif.Lemmas.Exceptions

/-!
# C76: the exception for a type text names what is wrong with it
-/

namespace Verif.Fault

open Verif Verif.Ty

/-- The model with messages is the model of C01 to C04. -/
theorem decode_kind (p : Bool) (v : Str) : (decode p v).kind = Ty.decode p v := decodeF_kind _ p v

/-- **C76** (`_partial`: for texts without braces).  If a type text is refused then what is thrown
is a `SubstraitException` or `std::out_of_range` for a number.  If it is a user error then it names
a part of the text that is not the text of any type with parameters, as it is written. -/
theorem decode_names_partial {p : Bool} {v : Str} (hv : NoBraces v) {r : Raised}
    (h : decode p v = .raised r) :
    (∃ raw, raw <:+: v ∧ Unknown raw ∧ Names r raw) ∨
      (∃ reason, r = .substrait false "INVALID_STATE".toList reason) ∨ r = .outOfRange := by
  rcases decodeF_raised h with ⟨raw, h1, h2, h3⟩ | ⟨base, n, e⟩ | e
  · refine .inl ⟨raw, h1, h2, ?_⟩
    have hb : NoBraces ("Unsupported type: ".toList ++ raw) := by
      have := infix_noBraces h1 hv
      constructor
      · rw [List.mem_append, not_or]
        exact ⟨by decide, this.1⟩
      · rw [List.mem_append, not_or]
        exact ⟨by decide, this.2⟩
    rw [h3, unsupported, raise, vformat_plain hb]
    rfl
  · exact .inr (.inl (e ▸ failure_reason base n))
  · exact .inr (.inr e)

/-- **C76, the condition.**  A text that is thrown as a message comes out as it is exactly if there
are no braces in it. -/
theorem unsupported_names (raw : Str) :
    Names (unsupported ("Unsupported type: ".toList ++ raw) []) raw ↔ NoBraces raw := by
  constructor
  · intro h
    unfold Names unsupported raise at h
    cases hf : vformat ("Unsupported type: ".toList ++ raw) [] with
    | none => rw [hf] at h; simp at h
    | some t =>
      rw [hf] at h
      simp only [Raised.substrait.injEq, true_and] at h
      subst h
      have := (vformat_shorter hf).2 rfl
      exact infix_noBraces (List.suffix_append _ _).isInfix this
  · intro h
    have hb : NoBraces ("Unsupported type: ".toList ++ raw) := by
      constructor
      · rw [List.mem_append, not_or]
        exact ⟨by decide, h.1⟩
      · rw [List.mem_append, not_or]
        exact ⟨by decide, h.2⟩
    unfold Names unsupported raise
    rw [vformat_plain hb]

/-- The reason is in what `what` returns, after the code and whether it is a user error. -/
theorem what_says (file function : Str) (line : Nat) (user : Bool) (code reason : Str) :
    ∃ before after, what file function line user code reason =
        before ++ "\nReason: ".toList ++ reason ++ "\nFunction: ".toList ++ after ∧
      ("Error Code: ".toList ++ code ++ "\nError Type: ".toList ++
        (if user then "user" else "system").toList) <:+ before := by
  unfold what
  have e : "\nError Code: ".toList = "\n".toList ++ "Error Code: ".toList := by decide
  rw [e]
  generalize "Exception: ".toList = x0
  generalize (if user then "SubstraitUserError" else "SubstraitRuntimeError").toList = x1
  generalize "\n".toList = x2
  generalize "Error Code: ".toList = x3
  generalize "\nError Type: ".toList = x4
  generalize (if user then "user" else "system").toList = x5
  generalize "\nReason: ".toList = x6
  generalize "\nFunction: ".toList = x7
  generalize "\nLocation: ".toList = x8
  generalize "(Line:".toList = x9
  generalize ")\n".toList = x10
  refine ⟨(x0 ++ x1 ++ x2) ++ (x3 ++ code ++ x4 ++ x5),
    function ++ x8 ++ file ++ x9 ++ (toString line).toList ++ x10, ?_, List.suffix_append _ _⟩
  simp only [List.append_assoc]

/-- What was thrown, if anything. -/
def thrown {α : Type} : Says α → Option Raised
  | .raised r => some r
  | _ => none

/-- Non-vacuity of `decode_names_partial`: the part that is wrong is inside. -/
example : thrown (decode false "List<set<i32>>".toList) =
    some (.substrait true "UNSUPPORTED".toList "Unsupported type: set<i32>".toList) := by
  decide +kernel

/-- **C76, braces** (the claim fails without the condition).  A type text with braces ends in
`fmt::format_error`, which is no `SubstraitException`; or another text is named. -/
theorem braces_misreported :
    thrown (decode false "set<{}>".toList) = some .format ∧
    thrown (decode false "set<{{i32}}>".toList) =
      some (.substrait true "UNSUPPORTED".toList "Unsupported type: set<{i32}>".toList) :=
  ⟨by decide +kernel, by decide +kernel⟩

/-- **C76, lengths.**  The message for a wrong length has the name of the type; but for
`fixedbinary` it has the name of another type. -/
theorem length_names :
    thrown (decode false "varchar<x>".toList) = some (.substrait false "INVALID_STATE".toList
      "Fail decode to varchar type, length parameter must be a positive integer".toList) ∧
    thrown (decode false "fixedbinary<x>".toList) = some (.substrait false "INVALID_STATE".toList
      "Fail decode to binary type, length parameter must be a positive integer".toList) :=
  ⟨by decide +kernel, by decide +kernel⟩

end Verif.Fault
