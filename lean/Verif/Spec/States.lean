/-! Specification: states and their particles. -/
namespace Verif

/-- The particles of an occupation list whose first mode is number `k`, in mode order. -/
def particlesFrom : Nat → List Nat → List Nat
  | _, [] => []
  | k, c :: l => List.replicate c k ++ particlesFrom (k + 1) l

/-- The particles of an occupation, in mode order. -/
abbrev particles (occ : List Nat) : List Nat := particlesFrom 0 occ

/-- Entry of a matrix given by its rows (0 outside). -/
def mget {K : Type _} [Zero K] (a : List (List K)) (i j : Nat) : K := (a.getD i []).getD j 0

end Verif
