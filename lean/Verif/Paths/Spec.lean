/-! C99: where files are. What a user expects of paths, of the temporary directory and of the compiler's command, in
terms of texts only. -/
namespace Verif.Paths

abbrev Text := List Char

/-- What a call gives: a result, a reported error, or an execution that C++ leaves undefined. -/
inductive Outcome (α : Type) where
  | ok (a : α)
  | reported
  | undefined
deriving DecidableEq, Repr

/-- `p` is the directory `d` (which ends in a slash) or something in it. -/
def Below (d p : Text) : Prop := ∃ r, p = d ++ r

/-- What a path means to a user of a shell: `~` and `~/rest` are in the home directory of the user, `~name…` is in the
home directory of another user, everything else is the path itself. -/
inductive Means (home : Text) (homeOf : Text → Text) : Text → Text → Prop where
  | own : Means home homeOf ['~'] home
  | inOwn (r : Text) : Means home homeOf ('~' :: '/' :: r) (home ++ '/' :: r)
  | other (u : Text) : u ≠ [] → '/' ∉ u → Means home homeOf ('~' :: u) (homeOf u)
  | inOther (u r : Text) : u ≠ [] → '/' ∉ u → Means home homeOf ('~' :: (u ++ '/' :: r)) (homeOf u ++ '/' :: r)
  | plain (p : Text) : p.head? ≠ some '~' → Means home homeOf p p

/-- `ws` are the words of the text `t`: words without blanks, with one or more blanks between them. -/
inductive WordsOf : Text → List Text → Prop where
  | nil : WordsOf [] []
  | blank (t : Text) (ws : List Text) : WordsOf t ws → WordsOf (' ' :: t) ws
  | last (w : Text) : w ≠ [] → ' ' ∉ w → WordsOf w [w]
  | word (w t : Text) (ws : List Text) : w ≠ [] → ' ' ∉ w → WordsOf t ws → WordsOf (w ++ ' ' :: t) (w :: ws)

end Verif.Paths
