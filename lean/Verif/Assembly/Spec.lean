import Verif.Assembly.Model
/-! Specification of assembly: what a result tensor stores for what its kernel visited. -/
namespace Verif.Assembly
open Verif.Pack (Kind)

variable {V : Type}

/-- Prefix the coordinate of a level. -/
def under (i : Nat) (rs : List (List Nat × V)) : List (List Nat × V) := rs.map (fun r => (i :: r.1, r.2))

/-- What a result stores below a position that no loop visited: dense levels above the first compressed
level hold the fill value everywhere, a compressed level nothing. -/
def unvisited (fill : V) : List (Nat × Kind) → List (List Nat × V)
  | [] => [([], fill)]
  | (n, .dense) :: ls => (List.range n).flatMap (fun i => under i (unvisited fill ls))
  | (_, .sparse) :: _ => []

/-- The components a result of the given levels stores: a dense level has all its coordinates, a
compressed level exactly those the loop visited, in the order of the visits. -/
def stored (fill : V) : (ls : List (Nat × Kind)) → Tree V ls.length → List (List Nat × V)
  | [], v => [([], valOf v)]
  | (n, .dense) :: ls, t =>
    (List.range n).flatMap (fun i => under i
      (match (entries t).lookup i with
        | some c => stored fill ls c
        | none => unvisited fill ls))
  | (_, .sparse) :: ls, t =>
    (entries t).flatMap (fun e => under e.1 (stored fill ls e.2))

/-- What the loops must satisfy: at dense levels of the result the coordinates are increasing and below
the dimension (an append level below relies on the order). -/
def visitsOK : (ls : List (Nat × Kind)) → Tree V ls.length → Prop
  | [], _ => True
  | (n, k) :: ls, t =>
    (k = .dense → ((entries t).map Prod.fst).Pairwise (· < ·) ∧
      ∀ e ∈ (entries t), e.1 < n) ∧
    ∀ e ∈ (entries t), visitsOK ls e.2

/-- All loops visit increasing coordinates below the dimension. -/
def visitsSorted : (ls : List (Nat × Kind)) → Tree V ls.length → Prop
  | [], _ => True
  | (n, _) :: ls, t =>
    ((entries t).map Prod.fst).Pairwise (· < ·) ∧
    (∀ e ∈ (entries t), e.1 < n) ∧
    ∀ e ∈ (entries t), visitsSorted ls e.2

end Verif.Assembly
