import Verif.Model.Files

/-! Specification of state files (C53, C54, C57, C84, C85). -/

namespace Poco.Spec
open Poco.Files

/-- A file system at rest: apart from the temporary names `T`, everything seen is also on the disk; no file has two names. -/
structure AtRest (T : Set FilePath) (fs : FS) : Prop where
  entries : ∀ q ∉ T, fs.maybe q = {fs.dir q}
  contents : ∀ q ∉ T, ∀ i, fs.dir q = some i → fs.disk i = some (fs.data i)
  numbered : ∀ q i, fs.dir q = some i → i < fs.next
  nolinks : ∀ p q i, fs.dir p = some i → fs.dir q = some i → p = q

/-- The temporary names used by a family of processes. -/
def tempNames {ι : Type} (jobs : ι → List Job) : Set FilePath := {t | ∃ a, ∃ j ∈ jobs a, tempPath j.path = t}

/-- `r` is what `q` held at the start, or all of what some call of `save_state(q)` wrote. -/
def OldOrComplete {ι : Type} (fs₀ : FS) (jobs : ι → List Job) (q : FilePath) (r : Option (List UInt8)) : Prop :=
  r = fs₀.read q ∨ ∃ a, ∃ j ∈ jobs a, j.path = q ∧ r = some j.content

end Poco.Spec
