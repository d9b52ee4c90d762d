/-
Model of calling an expression (/repo/probayes/expr.py:167-270).
-/
import Verif.Base.Arr
import Verif.Model.Args

namespace Probayes

/-- A value given for a symbol (expr.py:192-203): a boolean, another number, or an
array. -/
inductive EVal where
  | flag (b : Bool)
  | num (x : ℝ)
  | arr (a : Arr)

/-- A positional argument (expr.py:173): a dictionary or a value. -/
inductive EArg where
  | dict (items : List (ArgKey × EVal))
  | val (v : EVal)

/-- The expression (expr.py:104-131).  `syms` are the names of its symbols in the
order of `free_symbols` (a set, so any order); `fn` is its value at an assignment
of numbers, taken to be real; `numpy` tells whether `add_efun` found a function
for arrays (`_efun` then has the key `np.ndarray`). -/
structure ExprObj where
  syms : List Str
  fn : (Str → ℝ) → ℝ
  remap : Dict Str Str
  numpy : Bool

/-- `type(val) is np.ndarray` (expr.py:198). -/
def EVal.isArr : EVal → Bool
  | .arr _ => true
  | _ => false

/-- The value as an array. -/
def EVal.toArr : EVal → Arr
  | .flag b => ⟨[], fun _ => if b then 1 else 0⟩
  | .num x => ⟨[], fun _ => x⟩
  | .arr a => a

/-- expr.py:199-203: the first dimension longer than one. -/
def EVal.vecDim : EVal → Option ℕ
  | .arr a => a.shape.findIdx? fun n => decide (1 < n)
  | _ => none

/-- expr.py:173: not a dictionary. -/
def EArg.val? : EArg → Option EVal
  | .dict _ => none
  | .val v => some v

/-- The argument as seen by `parse_as_str_dict`. -/
def EArg.asDict : EArg → ArgDict EVal
  | .dict items => .dict items
  | .val _ => .other

/-- expr.py:170-181: the values by name. -/
def exprValues (E : ExprObj) (args : List EArg) (kwds : Dict Str EVal) : Py (Dict Str EVal) :=
  if kwds.isEmpty && decide (args.length = E.syms.length) && args.all (fun a => a.val?.isSome) then
    .ok (E.syms.zip (args.filterMap EArg.val?))
  else parseAsStrDict (args.map EArg.asDict) kwds E.remap

/-- expr.py:189-195, one symbol: booleans become integers, missing values raise. -/
def exprCheck (values : Dict Str EVal) (key : Str) : Py (Dict Str EVal) :=
  match Dict.get? values key with
  | none => .error .key
  | some (.flag b) => .ok (Dict.set values key (.num (if b then 1 else 0)))
  | some _ => .ok values

/-- The value of a symbol. -/
def exprVal (values : Dict Str EVal) (key : Str) : EVal := (Dict.get? values key).getD (.num 0)

/-- `np.broadcast` of several shapes. -/
def bshapeAll (shapes : List (List ℕ)) : Py (List ℕ) := shapes.foldlM bshape []

/-- expr.py:212-227 with an array function: elementwise with broadcasting (the
functions made by `ufuncify` or `lambdify`). -/
def exprNumpy (E : ExprObj) (values : Dict Str EVal) : Py EVal := do
  let shape ← bshapeAll (E.syms.map fun k => (exprVal values k).toArr.shape)
  return .arr ⟨shape, fun j => E.fn fun k => (exprVal values k).toArr.bget j⟩

/-- `np.meshgrid` (indexing `'xy'`): shape of the grids for arrays of these sizes. -/
def meshShape : List ℕ → List ℕ
  | a :: b :: l => b :: a :: l
  | l => l

/-- `np.meshgrid`: the axis along which the `i`th of `m` arrays varies. -/
def meshAxis (m i : ℕ) : ℕ :=
  if m < 2 then i else if i = 0 then 1 else if i = 1 then 0 else i

/-- `np.meshgrid`: entry of the `i`th grid at index `j`. -/
def meshGet (arrs : List Arr) (i : ℕ) (j : List ℕ) : ℝ :=
  match arrs[i]?, j[meshAxis arrs.length i]? with
  | some a, some n => a.get (unravelIx a.shape n)
  | _, _ => 0

/-- `np.max(np.diff(vec_dims)) > 0` (expr.py:235). -/
def rises : List ℕ → Bool
  | a :: b :: l => decide (a < b) || rises (b :: l)
  | _ => false

/-- expr.py:230-270: arrays without an array function. -/
def exprMesh (argsort : List ℝ → List ℕ) (E : ExprObj) (values : Dict Str EVal) : Py EVal := do
  let evalues := E.syms.map (exprVal values)
  let isarray := evalues.map EVal.isArr
  let vecDim := evalues.map EVal.vecDim
  let dims := vecDim.reduceOption
  let evalues' ←
    if 1 < dims.length && rises dims then do
      let sorted ← sortOrderedDict argsort values (.list (vecDim.map (Option.map (Nat.cast : ℕ → ℝ)))) true
      pure (sorted.map Prod.snd)
    else pure evalues
  let mesh := ((evalues'.zip isarray).filter fun vb => vb.2).map fun vb => vb.1.toArr
  let arrKeys := E.syms.filter fun k => (exprVal values k).isArr
  return .arr ⟨meshShape (mesh.map fun a => a.shape.prod), fun j => E.fn fun k =>
    match arrKeys.findIdx? (fun k' => decide (k' = k)) with
    | some i => meshGet mesh i j
    | none => (exprVal values k).toArr.get []⟩

/-- expr.py:167-270.  Numbers are evaluated by substitution (expr.py:213-227);
values of names that are not symbols are ignored by it. -/
def callExpr (argsort : List ℝ → List ℕ) (E : ExprObj) (args : List EArg) (kwds : Dict Str EVal) : Py EVal := do
  let given ← exprValues E args kwds
  let values ← E.syms.foldlM exprCheck given
  if E.syms.any fun k => (exprVal values k).isArr then
    if E.numpy then exprNumpy E values else exprMesh argsort E values
  else return .num (E.fn fun k => (exprVal values k).toArr.get [])

end Probayes
