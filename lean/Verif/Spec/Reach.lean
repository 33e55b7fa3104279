import Verif.Spec.WGraph

/-!
# Specification: reachability
-/

namespace Stag

/-- `v` can be reached from `u` along edges of the relation `E`. -/
inductive Reach {V : Type} (E : V → V → Prop) (u : V) : V → Prop where
  | refl : Reach E u u
  | step {v w : V} : Reach E u v → E v w → Reach E u w

namespace WGraph
variable {K : Type} [Field K]

/-- There is an edge of non-zero weight between existing vertices. -/
def Adj (s : WGraph K) (u v : Nat) : Prop := u < s.n ∧ v < s.n ∧ s.w u v ≠ 0

/-- `u` and `v` are in the same connected component. -/
def Connected (s : WGraph K) (u v : Nat) : Prop := Reach s.Adj u v

end WGraph
end Stag
