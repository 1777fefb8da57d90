/-! C100: reports of mistakes. What a user of the library expects of a call that checks its arguments, in terms of the
checks and of what the call does. -/
namespace Verif.Report

abbrev Text := List Char

/-- Who is to blame: the user, the library, or something that is not supported yet. -/
inductive Kind where
  | user
  | internal
  | temporary
deriving DecidableEq, Repr

/-- What happens when an expression is evaluated. -/
inductive Eval (α : Type) where
  | value (a : α)
  | throws (what : Text)
  | undefined
deriving DecidableEq, Repr

/-- A check in the source: its kind, whether it is a warning, the place where it is, its condition (and the text of it),
and the operands of its message. -/
structure Check where
  kind : Kind
  warning : Bool
  file : Text
  line : Text
  func : Text
  cond : Eval Bool
  condText : Option Text
  message : List (Eval Text)
deriving DecidableEq, Repr

/-- How a call ends: it goes on behind its checks, it throws, the process is terminated, or it is undefined. -/
inductive Result where
  | goesOn
  | exception (what : Text)
  | terminated
  | undefined
deriving DecidableEq, Repr

/-- The text of a message all of whose operands have values. -/
def Says : List (Eval Text) → Text → Prop
  | [], t => t = []
  | e :: es, t => ∃ a b, e = .value a ∧ Says es b ∧ t = a ++ b

/-- `what` is a report of the check: it begins with what is to be blamed, names the file and the line, and the function unless it is
about what is not supported yet, has the text of the condition unless the user is to be blamed, and ends with the
message. -/
def IsReportOf (c : Check) (what : Text) : Prop :=
  ∃ m pre, Says c.message m ∧ what = pre ++ m ∧
    (match c.kind with
     | .user => "Error".toList
     | .internal => "Compiler bug".toList
     | .temporary => "Temporary assumption broken".toList) <+: pre ∧
    (c.file ++ ':' :: c.line) <:+: pre ∧ (c.kind ≠ .temporary → c.func <:+: pre) ∧
    (c.kind ≠ .user → ∀ t, c.condText = some t → t <:+: pre)

end Verif.Report
