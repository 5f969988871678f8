import Verif.Model.Scaler

/-! # Model of the `bounds` argument of `Reparameterize` (scaler.py:54-62, input_validation.py:56-58) -/

namespace Poco
open F

/-- The `bounds` argument: `None`; two numbers (an array with shape `(2,)` of any dtype, a list or a tuple); a Python list with
one pair for each parameter; a two-dimensional array, by rows, with its dtype. -/
inductive BoundsArg where
  | none
  | pair (a b : F)
  | pairs (l : List (F × F))
  | array (isFloat : Bool) (rows : List (List F))

/-- scaler.py:58: `np.array(bounds, dtype=np.float32).reshape(2, 1)` for two rows; reshaping raises ValueError unless there is
one number in each.  `cast` is the conversion to single precision. -/
def tileRows (cast : F → F) : List (List F) → Except PyErr (F × F)
  | [[a], [b]] => .ok (cast a, cast b)
  | _ => .error .valueError

/-- scaler.py:61-62: a column of a two-dimensional array, `bounds.T[k]`; IndexError if there are not so many columns. -/
def column (rows : List (List F)) (k : ℕ) : Except PyErr (List F) :=
  rows.mapM fun r => match r[k]? with
    | some x => .ok x
    | Option.none => .error .indexError

/-- scaler.py:465: `_create_masks` reads `low[i]` and `high[i]` for every parameter. -/
def maskIndex (d : ℕ) (b : List F × List F) : Except PyErr (List F × List F) :=
  if b.1.length < d then .error .indexError else .ok b

/-- scaler.py:55-62 and 82: what becomes of the argument, as the lists `low` and `high`.  A list has no `dtype`, so
`assert_array_float` raises AttributeError; an array that is not of floating point type is a ValueError. -/
def boundsOf (cast : F → F) (d : ℕ) : BoundsArg → Except PyErr (List F × List F)
  | .none => .ok (List.replicate d pinf, List.replicate d pinf)
  | .pair a b => .ok (List.replicate d (cast a), List.replicate d (cast b))
  | .pairs _ => .error .attributeError
  | .array isFloat rows =>
    if rows.length = 2 ∧ ¬ ∀ r ∈ rows, r.length = 2 then
      (tileRows cast rows).map fun (a, b) => (List.replicate d a, List.replicate d b)
    else if !isFloat then .error .valueError
    else do
      let low ← column rows 0
      let high ← column rows 1
      maskIndex d (low, high)

/-- scaler.py:45-82 the constructor, for a bounds argument of any kind.  Simplification: an array with more rows than parameters,
which the constructor accepts and `forward` later refuses, is refused here. -/
def Scaler.make (cast : F → F) (d : ℕ) (bounds : BoundsArg) (periodic reflective : Option (List (Fin d)))
    (transform : Transform) (scale : Bool) : Except PyErr (Scaler d) := do
  let (low, high) ← boundsOf cast d bounds
  if h : low.length = d ∧ high.length = d then
    return { low := fun i => low[i], high := fun i => high[i], periodic, reflective, transform, scale
             affine := Option.none }
  else .error .valueError

end Poco
