import Verif.Model.Sampler

/-! Specification vocabulary for the choice of the kernel and for its adapted centre. -/

namespace Poco.Spec
open F

variable {d : ℕ}

/-- `x` is the parameter point of the latent point `z`: the flow's inverse takes `z` to the unconstrained space, the scaler
takes it on to parameters; if boundary conditions are declared, the point is moved by them and sent once through the scaler
and back. -/
def LatentImage (s : Scaler d) (flowInv : Pt d → Pt d × F) (fuel : ℕ) (z x : Pt d) : Prop :=
  ∃ x₀ ld₀, s.inverseRow (flowInv z).1 = .ok (x₀, ld₀) ∧
    ((s.periodic = none ∧ s.reflective = none ∧ x = x₀) ∨
     ((s.periodic ≠ none ∨ s.reflective ≠ none) ∧
        ∃ x₁ u ld, s.boundaryRow fuel x₀ = some x₁ ∧ s.forwardRow x₁ = .ok u ∧ s.inverseRow u = .ok (x, ld)))

/-- The mean of the points of a list, coordinate by coordinate. -/
noncomputable def centroid (l : List (Fin d → ℝ)) (j : Fin d) : ℝ := (l.map fun p => p j).sum / l.length

/-- Two fitted geometries that agree in the parts a t-pCN kernel is documented to use. -/
def SameT (g g' : Geo d) : Prop := g.tMean = g'.tMean ∧ g.tCov = g'.tCov ∧ g.tNu = g'.tNu

/-- Two geometries, or their absence, related by `R`. -/
def OptRel {α : Type} (R : α → α → Prop) : Option α → Option α → Prop
  | none, none => True
  | some a, some b => R a b
  | _, _ => False

end Poco.Spec
