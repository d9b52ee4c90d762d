/-
Model of the conversion of values to the type of a variable, /repo/probayes/vtypes.py
156-166 (`revtype`), and of the deltas of integer variables of any size,
/repo/probayes/variable.py 641-714 (`apply_delta`).
-/
import Mathlib.Data.Real.Basic
import Verif.Model.VarInit

namespace Probayes

open VarInit (Ty Num)

/-- What `revtype` is given: a number, a one-dimensional array of a type, or a container of
numbers (sets as any enumeration). -/
inductive Held where
  | scalar (x : Num)
  | array (ty : Ty) (xs : List Num)
  | list (xs : List Num)
  | tuple (xs : List Num)
  | set (xs : List Num)

/-- vtypes.py:24-54: `eval_vtype` of numbers, arrays and containers. -/
def Held.evalTy : Held → Option Ty
  | .scalar x => if x.isInf then none else some x.ty
  | .array ty _ => some ty
  | .list xs => VarInit.promote xs
  | .tuple xs => VarInit.promote xs
  | .set xs => VarInit.promote xs

/-- vtypes.py:156-166.  `np.array` makes an array of a list or tuple entry by entry.  A set is one
object for it: its truth value is taken for `bool` (an array without axis, here a scalar), for
the other types it raises TypeError.  Infinities in containers are not modelled. -/
def revtype (v : Held) (vtype : Option Ty) : Py Held :=
  match vtype with
  | none => .ok v
  | some t =>
      if v.evalTy = some t then .ok v
      else match v with
        | .scalar x => .ok (.scalar (t.conv x))
        | .array _ xs => .ok (.array t (xs.map t.conv))
        | .list xs => .ok (.array t (xs.map t.conv))
        | .tuple xs => .ok (.array t (xs.map t.conv))
        | .set xs => if t = .bool then .ok (.scalar (.bool !xs.isEmpty)) else .error .type

/-- Deltas of an integer variable that may be of any size (variable.py:385-391): a number, or
`(d,)`.  `[d]` is in `Model/VarDelta.lean`, for integers. -/
inductive AnyDelta where
  | scalar (d : ℚ)
  | orand (d : ℚ)
deriving DecidableEq

/-- variable.py:663: `delta or self._delta`. -/
def anyOrDefault (delta default : Option AnyDelta) : Option AnyDelta :=
  match delta with
  | some (.scalar d) => if d = 0 then default else delta
  | some (.orand _) => delta
  | none => default

/-- The options of the default delta (variable.py:376-409), the length and the limits. -/
structure IntVar where
  delta : Option AnyDelta
  scale : Bool
  bound : Bool
  len : ℤ
  lo : ℤ
  hi : ℤ

/-- variable.py:663-672 with 600-638: the number added; `u` is the draw of `np.random.uniform()`. -/
noncomputable def IntVar.amount (x : IntVar) (delta : Option AnyDelta) (u : ℝ) : Option ℚ :=
  match anyOrDefault delta x.delta with
  | none => none
  | some (.scalar d) => some d
  | some (.orand d) =>
      let e := if u > 1/2 then d else -d                                        -- 621-625
      some (if x.delta = some (.scalar e) ∧ x.scale then e * x.len else e)       -- 634-636

/-- variable.py:694-695 and 698: the sum, a float unless the delta is a whole number, becomes an
integer again. -/
def intSum (v : ℤ) (d : ℚ) : ℤ :=
  match revtype (.scalar (.flt (v + d))) (some .int) with
  | .ok (.scalar (.int n)) => n
  | _ => v

/-- variable.py:641-714 for an integer variable and a single value. -/
noncomputable def IntVar.apply (x : IntVar) (v : ℤ) (delta : Option AnyDelta) (bound : Option Bool) (u : ℝ) : ℤ :=
  match x.amount delta u with
  | none => v
  | some d => if bound.getD x.bound then max x.lo (min x.hi (intSum v d)) else intSum v d

/-- variable.py:641-714 for an integer variable and an array: one draw for all entries. -/
noncomputable def IntVar.applyAll (x : IntVar) (vs : List ℤ) (delta : Option AnyDelta) (bound : Option Bool)
    (u : ℝ) : List ℤ :=
  match x.amount delta u with
  | none => vs
  | some d => vs.map fun v => if bound.getD x.bound then max x.lo (min x.hi (intSum v d)) else intSum v d

end Probayes
