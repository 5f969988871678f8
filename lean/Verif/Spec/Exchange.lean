import Verif.Model.Mcmc

/-! Specification of C140: the same walkers in another order. -/

namespace Poco.Spec

variable {d : ℕ} {B : Type}

/-- `l'` holds the entries of `l` in the order given by `σ`: at place `k` of `l'` stands what stands at place `σ k` of `l`. -/
def Reordered {α : Type} (σ : Equiv.Perm ℕ) (l l' : List α) : Prop := ∀ k, l'[k]? = l[σ k]?

/-- The random numbers of the walkers in the order given by `σ`. -/
def reorderedDraws (σ : Equiv.Perm ℕ) (rnd : ℕ → ℕ → Draw d) : ℕ → ℕ → Draw d := fun i k => rnd i (σ k)

end Poco.Spec
