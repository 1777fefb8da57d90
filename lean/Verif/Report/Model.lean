import Verif.Report.Spec
/-! C100: the macros of error.h and `ErrorReport`. A call is the list of the checks that it comes to; what it computes
between them is not modelled. Newlines of `endl` are one character. -/
namespace Verif.Report

/-- error.cpp 44-46 and 53-55: the text of the condition, if there is one. -/
def condition : Option Text → Text
  | some t => '\n' :: " Condition failed: ".toList ++ t
  | none => []

/-- error.cpp 17-60: the beginning of the message, written when the condition does not hold. -/
def header (c : Check) : Text :=
  match c.kind with
  | .user => (if c.warning then "Warning".toList else "Error".toList) ++ " at ".toList ++ c.file ++ ':' :: c.line ++
      " in ".toList ++ c.func ++ ":\n ".toList
  | .internal => "Compiler bug".toList ++ (if c.warning then "(warning)".toList else []) ++ " at ".toList ++ c.file ++
      ':' :: c.line ++ " in ".toList ++ c.func ++ "\nPlease report it to developers".toList ++ condition c.condText ++ "\n ".toList
  | .temporary => "Temporary assumption broken".toList ++ " at ".toList ++ c.file ++ ':' :: c.line ++
      "\n Not supported yet, but planned for the future".toList ++ condition c.condText ++ "\n ".toList

/-- error.h 39-54, `operator<<` when the condition holds (and of `Dummy`, error.h 75-84): operands are evaluated and
dropped. -/
def dropOperands : List (Eval Text) → Result
  | [] => .goesOn
  | .value _ :: es => dropOperands es
  | .throws w :: _ => .exception w
  | .undefined :: _ => .undefined

/-- The same when the condition does not hold: values are appended to the message. At the end the destructor throws
(error.h 56-61, error.cpp 62-66), for warnings too. If an operand throws, the destructor is run while the stack is
unwound, and throws: `std::terminate`. -/
def appendOperands (msg : Text) : List (Eval Text) → Result
  | [] => .exception msg
  | .value t :: es => appendOperands (msg ++ t) es
  | .throws _ :: _ => .terminated
  | .undefined :: _ => .undefined

/-- One check; `asserts` is `TACO_ASSERTS`. Without it `taco_iassert` and `taco_ierror` are `Dummy` (error.h 67-88): the
condition is not evaluated, the message is. -/
def check (asserts : Bool) (c : Check) : Result :=
  if c.kind = .internal ∧ asserts = false then dropOperands c.message
  else
    match c.cond with
    | .value true => dropOperands c.message
    | .value false => appendOperands (header c) c.message
    | .throws w => .exception w
    | .undefined => .undefined

/-- A call. -/
def call (asserts : Bool) : List Check → Result
  | [] => .goesOn
  | c :: cs =>
    match check asserts c with
    | .goesOn => call asserts cs
    | r => r

end Verif.Report
