import Verif.Model.Returned

/-! Specification of C141, C142: what a caller may do with the arrays it was given. -/

namespace Poco.Spec

variable {d : ℕ} {B Φ : Type}

/-- Memory after the caller has written anything, any number of times, to the arrays `vs` (and perhaps made arrays of its own):
no other array has changed. -/
def Scribbled (vs : List (Kind × View)) (h h' : Heap d B) : Prop :=
  h.next ≤ h'.next ∧ ∀ k a, a < h.next → (∀ v, (k, v) ∈ vs → v.base ≠ a) → h'.mem k a = h.mem k a

/-- The sampler in that memory. -/
def inMemory (h : Heap d B) (r : RefSampler d B Φ) : RefSampler d B Φ := { r with heap := h }

/-- What the dictionary `results` shows: the iterations, and the `logw` entry once it has been computed. -/
def resultsShow (h : Heap d B) (c : ResRefs) : List (Iter d (List B)) × Option (List F) :=
  (c.its.map (RefIter.see h), c.logw.map (h.read .nums))

end Poco.Spec
