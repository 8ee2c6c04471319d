import Verif.Tensor
import Mathlib.Algebra.Order.Floor.Ring
import Mathlib.Algebra.Order.Archimedean.Real.Basic

/-!
# Value and configuration checks

Models of `simple_einet/type_checks.py` and of `EinetConfig.assert_valid` (`simple_einet/einet.py:42-83`).
-/

open Classical
noncomputable section
namespace Einet

/-- The two `expected_type`s that the code passes to `check_valid`. -/
inductive PyType where
  | int
  | float
  deriving DecidableEq

/-- A plain number: a bound, or the value returned by `expected_type(value)`. Python floats are `Fl`; Python's exact
conversion of integers to floats is idealised (no rounding of huge integers). -/
inductive Num where
  | int (z : ℤ)
  | float (f : Fl)

/-- the number as a float. -/
def Num.val : Num → Fl
  | .int z => .fin z
  | .float f => f

/-- Python values handed to `check_valid`, by what the checks can tell apart: `None`, `bool`, `int`, `float`, numpy
integer and floating scalars, any other object of a numpy type (arrays, `np.bool_`), torch tensors (whether the dtype
is floating, and the entries), and anything else. -/
inductive PyVal where
  | none
  | bool (b : Bool)
  | int (z : ℤ)
  | float (f : Fl)
  | npInt (z : ℤ)
  | npFloat (f : Fl)
  | npOther
  | tensor (floating : Bool) (vals : List Num)
  | other

/-- `a >= b` on floats. -/
def flGe (a b : Fl) : Prop := Fl.lt b a ∨ (a = b ∧ a ≠ .nan)

/-- `int(x)` for a float: truncation towards zero, an exception for NaN and infinities; identity on integers. -/
def Num.toInt : Num → Res ℤ
  | .int z => .ok z
  | .float (.fin r) => .ok (if 0 ≤ r then ⌊r⌋ else ⌈r⌉)
  | .float _ => .error .value

/-- `expected_type(x)` for a number (used on bounds and on the value). -/
def Num.cast (t : PyType) (x : Num) : Res Num :=
  match t with
  | .int => do return .int (← x.toInt)
  | .float => .ok (.float x.val)

/-- Python truth value of an optional number. -/
def truthy : Option Num → Prop
  | none => False
  | some x => x.val ≠ .fin 0

/-- the number behind a value in a scalar comparison or conversion; tensors with another number of elements than one
raise. -/
def PyVal.scalar : PyVal → Res Num
  | .bool b => .ok (.int (if b then 1 else 0))
  | .int z => .ok (.int z)
  | .float f => .ok (.float f)
  | .npInt z => .ok (.int z)
  | .npFloat f => .ok (.float f)
  | .tensor _ [x] => .ok x
  | .tensor _ _ => .error .value
  | _ => .error .type

/-- one half of `_check_bounds`: `if bound: if not value <cmp> expected_type(bound): raise`. -/
def checkBound (cmp : Fl → Fl → Prop) (value : PyVal) (t : PyType) : Option Num → Res Unit
  | none => .ok ()
  | some l =>
    if truthy (some l) then do
      let b ← l.cast t
      let v ← value.scalar
      require .value (cmp v.val b.val)
    else .ok ()

/-- `_check_bounds` (type_checks.py:36-57). -/
def checkBounds (value : PyVal) (t : PyType) (lower upper : Option Num) : Res Unit := do
  checkBound flGe value t lower
  checkBound Fl.lt value t upper

/-- `_check_type` with its three variants (type_checks.py:60-148). -/
def checkType (value : PyVal) (t : PyType) : Res Unit :=
  match value, t with
  | .tensor fl _, .float => require .type (fl = true)
  | .tensor fl _, .int => require .type (fl = false)
  | .npFloat _, .float => .ok ()
  | .npInt _, .int => .ok ()
  | .npFloat _, .int => .error .type
  | .npInt _, .float => .error .type
  | .npOther, _ => .error .type
  | .int _, .int => .ok ()
  | .int _, .float => .error .type
  | .float _, .float => .ok ()
  | .float _, .int => .error .type
  | _, _ => .error .other

/-- `check_valid` (type_checks.py:151-178). -/
def checkValid (value : PyVal) (t : PyType) (lower upper : Option Num := none) (allowNone : Bool := false) :
    Res (Option Num) :=
  match value, allowNone with
  | .none, true => .ok none
  | .none, false => .error .other
  | v, _ => do
    checkType v t
    checkBounds v t lower upper
    let x ← v.scalar
    return some (← x.cast t)

/-- what `leaf_type` may be: `None`, an `AbstractLeaf` subclass, or something else. -/
inductive LeafArg where
  | missing
  | leaf
  | notLeaf
  deriving DecidableEq

/-- `EinetConfig` (einet.py:25-40); integer fields are Python integers, `cardinality` is
`leaf_kwargs.get("cardinality")`. -/
structure Config where
  num_features : ℤ
  num_channels : ℤ := 1
  num_sums : ℤ := 10
  num_leaves : ℤ := 10
  num_repetitions : ℤ := 5
  num_classes : ℤ := 1
  depth : ℤ := 1
  dropout : Option Fl := some (.fin 0)
  leaf_type : LeafArg := .leaf
  cardinality : Option ℤ := none
  layer_type : String := "linsum"
  structure' : String := "top-down"

/-- an optional Python float. -/
def optFloat : Option Fl → PyVal
  | none => .none
  | some f => .float f

/-- `EinetConfig.assert_valid` (einet.py:42-83). `2**depth` with a negative depth is a Python float, hence the
rational power. -/
def Config.assertValid (c : Config) : Res Unit := do
  let _ ← checkValid (.int c.depth) .int (some (.int 0))
  let _ ← checkValid (.int c.num_features) .int (some (.int 2))
  let _ ← checkValid (.int c.num_channels) .int (some (.int 1))
  let _ ← checkValid (.int c.num_classes) .int (some (.int 1))
  let _ ← checkValid (.int c.num_sums) .int (some (.int 1))
  let _ ← checkValid (.int c.num_repetitions) .int (some (.int 1))
  let _ ← checkValid (.int c.num_leaves) .int (some (.int 1))
  let _ ← checkValid (optFloat c.dropout) .float (some (.float (.fin 0))) (some (.float (.fin 1))) true
  require .assertion (c.leaf_type ≠ .missing)
  require .assertion (c.layer_type ∈ ["linsum", "linsum2", "einsum"])
  require .assertion (c.structure' ∈ ["top-down", "bottom-up"])
  require .assertion (c.leaf_type = .leaf)
  let cardinality := c.cardinality.getD 1
  if c.structure' = "bottom-up" then require .assertion (c.layer_type = "linsum") else .ok ()
  require .zeroDivision (cardinality ≠ 0)
  let minNumFeatures : ℤ := Int.fdiv c.num_features cardinality
  require .assertion ((2 : ℚ) ^ c.depth ≤ minNumFeatures)

end Einet
