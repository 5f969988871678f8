import Verif.Model.Blobs

/-! When two blob entries have the same value (C134). -/

namespace Poco.Spec
open F

/-- The value of an entry as a number; text has none. -/
noncomputable def number : BlobVal → Option F
  | .bool b => some (fin (if b then 1 else 0))
  | .int z => some (fin z)
  | .flt v => some v
  | .text _ => none

/-- Same number, or same text. -/
def SameValue (v w : BlobVal) : Prop :=
  (∃ a, number v = some a ∧ number w = some a) ∨ ∃ s, v = .text s ∧ w = .text s

/-- Two blobs (rows) have the same values. -/
def SameBlob (r r' : List BlobVal) : Prop := List.Forall₂ SameValue r r'

/-- A data type holds an entry without changing its value: any entry for objects, numbers for floats, whole numbers for integers, 0 and 1 for truth values. -/
def Fits : Dtype → BlobVal → Prop
  | .object, _ => True
  | .float, v => ∃ a, number v = some a
  | .int, v => ∃ z : ℤ, number v = some (fin z)
  | .bool, v => number v = some (fin 0) ∨ number v = some (fin 1)

end Poco.Spec
