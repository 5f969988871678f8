import Verif.Model.LogLike

/-!
# Model of blob arrays: how `sampler.py`, `mcmc.py` and `particles.py` choose their data type and convert to it
`Model/LogLike.lean` keeps blobs as they are returned; this file adds the data types.
-/

namespace Poco
open F

/-- One entry of a blob: a Python (or numpy) truth value, integer, floating-point number or text.  Simplification: an entry is a
scalar; integers are unbounded; a text is not the spelling of a number. -/
inductive BlobVal where
  | bool (b : Bool)
  | int (z : ℤ)
  | flt (v : F)
  | text (s : String)

/-- The numpy data types met: `bool`, `int64`, `float64`, `object`.  Simplification: no structured types. -/
inductive Dtype where
  | bool
  | int
  | float
  | object
deriving DecidableEq

/-- A blob array, one row for each point.  All rows of an array of numbers have the same length. -/
structure BlobArr where
  dtype : Dtype
  rows : List (List BlobVal)

/-- The type numpy finds for one entry; text counts as `object` (sampler.py:849-851). -/
def BlobVal.dtype : BlobVal → Dtype
  | .bool _ => .bool
  | .int _ => .int
  | .flt _ => .float
  | .text _ => .object

/-- `np.promote_types` on the types met. -/
def Dtype.promote : Dtype → Dtype → Dtype
  | .object, _ => .object
  | _, .object => .object
  | .float, _ => .float
  | _, .float => .float
  | .int, _ => .int
  | _, .int => .int
  | .bool, .bool => .bool

/-- sampler.py:845-851: `np.atleast_1d(blob[0]).dtype`, strings (also together with numbers) being replaced by `object`. -/
def rowDtype (row : List BlobVal) : Dtype := (row.map BlobVal.dtype).foldl Dtype.promote .bool

/-- Truncation towards zero, as `int(r)`. -/
noncomputable def truncate (r : ℝ) : ℤ := if 0 ≤ r then ⌊r⌋ else ⌈r⌉

/-- Conversion of one Python object when `np.array(…, dtype=dt)` fills an array, sampler.py:852. -/
noncomputable def castVal : Dtype → BlobVal → Except PyErr BlobVal
  | .object, v => .ok v
  | .float, .bool b => .ok (.flt (fin (if b then 1 else 0)))
  | .float, .int z => .ok (.flt (fin z))
  | .float, .flt v => .ok (.flt v)
  | .float, .text _ => .error .valueError
  | .int, .bool b => .ok (.int (if b then 1 else 0))
  | .int, .int z => .ok (.int z)
  | .int, .flt (fin r) => .ok (.int (truncate r))
  | .int, .flt nan => .error .valueError
  | .int, .flt _ => .error .overflowError
  | .int, .text _ => .error .valueError
  | .bool, .bool b => .ok (.bool b)
  | .bool, .int z => .ok (.bool (decide (z ≠ 0)))
  | .bool, .flt (fin r) => .ok (.bool (if r = 0 then false else true))
  | .bool, .flt _ => .ok (.bool true)
  | .bool, .text _ => .error .valueError

open Classical in
/-- sampler.py:852 `np.array(blob, dtype=dt)`: rows of different lengths make no array of numbers. -/
noncomputable def mkArray (dt : Dtype) (rows : List (List BlobVal)) : Except PyErr BlobArr :=
  if dt ≠ .object ∧ (∃ r ∈ rows, ∃ r' ∈ rows, r.length ≠ r'.length) then .error .valueError
  else (rows.mapM fun (r : List BlobVal) => r.mapM (castVal dt)).map fun rs => ⟨dt, rs⟩

/-- sampler.py:807-861 `_log_like` with the data type of the blobs.  `blobsDtype` is the constructor argument `blobs_dtype`.
Simplification: squeezing of unit axes (sampler.py:854-859) is left to `BlobArr.flat`. -/
noncomputable def logLikeTyped {d : ℕ} (e : LikeEnv d BlobVal) (blobsDtype : Option Dtype) (x : List (Pt d)) :
    Except PyErr (List F × Option BlobArr × Bool) := do
  let (l, blob, hb) ← logLike e x
  match blob with
  | none => return (l, none, hb)
  | some rows =>
    let dt := blobsDtype.getD (rowDtype (rows.headD []))
    let a ← mkArray dt rows
    return (l, some a, hb)

/-- sampler.py:854-859: is the array one-dimensional?  It is if its rows have one entry, and if numpy could not align them. -/
def BlobArr.flat (a : BlobArr) : Prop := (∀ r ∈ a.rows, r.length = 1) ∨ ∃ r ∈ a.rows, ∃ r' ∈ a.rows, r.length ≠ r'.length

/-- Conversion between arrays, as in `blobs_prime[finite_mask] = …`, mcmc.py:115: like `castVal`, but C conversion of NaN and
infinities to an integer gives the smallest integer. -/
noncomputable def castEntry (dt : Dtype) (v : BlobVal) : Except PyErr BlobVal :=
  match dt, v with
  | .int, .flt nan => .ok (.int (-2 ^ 63))
  | .int, .flt pinf => .ok (.int (-2 ^ 63))
  | .int, .flt ninf => .ok (.int (-2 ^ 63))
  | dt, v => castVal dt v

/-- Assignment of `None`, mcmc.py:115 when no point is evaluated (`_log_like` then returns no blobs).  numpy converts the value
also when nothing is selected. -/
def castNone : Dtype → Except PyErr Unit
  | .int => .error .typeError
  | _ => .ok ()

open Classical in
/-- What a kernel makes of the likelihood call, mcmc.py:113-115 (also 281-283, 442-444, 596-598), when its array `blobs` has the type `dt`
(`flat`: and is one-dimensional).  `blobs[0].dtype` does not exist for a one-dimensional array of objects; the blobs are converted to `dt`.  The
accepted ones are then copied into `blobs`, which has the same type (mcmc.py:149, 311, 476, 624), as `Model/Mcmc.lean` does. -/
noncomputable def typedLike {d : ℕ} (e : LikeEnv d BlobVal) (blobsDtype : Option Dtype) (dt : Dtype) (flat : Prop) (x : List (Pt d)) :
    Except PyErr (List F × Option (List (List BlobVal))) :=
  if dt = .object ∧ flat then .error .attributeError
  else do
    let (l, blob, _) ← logLikeTyped e blobsDtype x
    match blob with
    | none =>
      let _ ← castNone dt
      return (l, none)
    | some a =>
      let rows ← a.rows.mapM fun (r : List BlobVal) => r.mapM (castEntry dt)
      return (l, some rows)

/-- particles.py `get("blobs", flat=True)`: `np.concatenate` of the stored arrays, converted to their common type. -/
noncomputable def concatBlobs (as : List BlobArr) : Except PyErr BlobArr :=
  let dt := (as.map BlobArr.dtype).foldl Dtype.promote .bool
  ((as.flatMap BlobArr.rows).mapM fun (r : List BlobVal) => r.mapM (castEntry dt)).map fun rs => ⟨dt, rs⟩

end Poco
