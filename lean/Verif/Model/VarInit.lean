/-
Model of the construction of variables: /repo/probayes/variable.py 82-124
(`Variable.__init__`), 169-219 (`vset` setter), 228-241 (`vtype` setter),
249-276 (`_eval_vlims`), 313-366 (the parts of `_eval_ulims` without transforms),
/repo/probayes/vtypes.py 24-54 (`eval_vtype`) and /repo/probayes/rv.py 74
(`RV.__init__`).

Numbers are Python booleans, integers, finite floats (exact rationals) and the
two infinities `sympy.oo`, `-sympy.oo`; rounding of `float(int)` is not modelled.
-/
import Mathlib.Algebra.Order.Ring.Rat
import Mathlib.Data.Rat.Floor
import Mathlib.Order.WithBot
import Verif.Base.Py

namespace Probayes.VarInit

/-- The three variable types (vtypes.py:12-17; NumPy types reduce to them). -/
inductive Ty where
  | bool | int | float
deriving DecidableEq

/-- A number: `bool`, `int`, a finite `float`, or `±sympy.oo` (`true` for `-oo`). -/
inductive Num where
  | bool (b : Bool)
  | int (n : ℤ)
  | flt (q : ℚ)
  | inf (neg : Bool)
deriving DecidableEq

/-- Numbers extended with both infinities. -/
abbrev Ext := WithBot (WithTop ℚ)

/-- A finite number among the extended ones. -/
def Ext.ofRat (q : ℚ) : Ext := ((q : WithTop ℚ) : Ext)

/-- The numerical value: `True` counts 1 and `False` 0. -/
def Num.value : Num → Ext
  | .bool b => Ext.ofRat (if b then 1 else 0)
  | .int n => Ext.ofRat n
  | .flt q => Ext.ofRat q
  | .inf true => ⊥
  | .inf false => ((⊤ : WithTop ℚ) : Ext)

/-- `value == OO or value == -OO` (variable.py:197, 199). -/
def Num.isInf : Num → Bool
  | .inf _ => true
  | _ => false

/-- vtypes.py:40-44: the Python type of a number.  Infinities are never asked
(variable.py:197-201); their entry here is not used. -/
def Num.ty : Num → Ty
  | .bool _ => .bool
  | .int _ => .int
  | .flt _ => .float
  | .inf _ => .float

/-- Python's `int(q)`: truncation towards zero. -/
def trunc (q : ℚ) : ℤ := if 0 ≤ q then ⌊q⌋ else ⌈q⌉

/-- `(vtype)(value)` for `bool`, `int`, `float` (variable.py:198, 208).  Infinities
are never converted (197, 199). -/
def Ty.conv : Ty → Num → Num
  | .bool, .bool b => .bool b
  | .bool, .int n => .bool (n ≠ 0)
  | .bool, .flt q => .bool (q ≠ 0)
  | .int, .bool b => .int (if b then 1 else 0)
  | .int, .int n => .int n
  | .int, .flt q => .int (trunc q)
  | .float, .bool b => .flt (if b then 1 else 0)
  | .float, .int n => .flt n
  | .float, .flt q => .flt q
  | _, .inf s => .inf s

/-- An entry of a set: a number, or a 1-tuple marking an exclusive limit
(variable.py:152-157). -/
inductive Lim where
  | incl (v : Num)
  | excl (v : Num)
deriving DecidableEq

def Lim.num : Lim → Num
  | .incl v => v
  | .excl v => v

def Lim.isExcl : Lim → Bool
  | .incl _ => false
  | .excl _ => true

/-- Set specifications (variable.py:173-188).  `set` and `range` carry any
enumeration of their (distinct) elements, `array` the entries of a
one-dimensional array, `tuple` a tuple of numbers and `list` a list of numbers
and 1-tuples.  Containers of other contents are not modelled. -/
inductive SetArg where
  | set (xs : List Num)
  | range (xs : List ℤ)
  | tuple (xs : List Num)
  | array (xs : List Num)
  | list (xs : List Lim)

/-- What may be given in either position: `None`, a type, a scalar, or a set. -/
inductive Arg where
  | none
  | ty (t : Ty)
  | scalar (v : Num)
  | set (s : SetArg)

/-- Python's `sorted` and `np.sort` by numerical value. -/
def sortNum (xs : List Num) : List Num :=
  xs.mergeSort fun a b => decide (a.value ≤ b.value)

/-- variable.py:24-26 `DEFAULT_VSETS`. -/
def defaultSet : Ty → List Lim
  | .bool => [.incl (.bool false), .incl (.bool true)]
  | .int => [.incl (.int 0), .incl (.int 1)]
  | .float => [.excl (.inf true), .excl (.inf false)]

/-- A variable: its type, its set, the list object its set was assigned from
before any reordering (211), its limits, and the type in force when the limits
and the membership test were last evaluated. -/
structure Var where
  ty : Ty
  vset : List Lim
  raw : List Lim
  lo : Ext
  hi : Ext
  kind : Ty

/-- variable.py:172-188: a specification becomes a list.  `own` is the type the
variable already has. -/
def toList (own : Option Ty) : Arg → Py (List Lim)
  | .none =>
      match own with
      | some t => .ok (defaultSet t)                                       -- 173-174
      | none => .error .assertion                                          -- 187-188
  | .set (.set xs) => .ok ((sortNum xs).map .incl)                         -- 175-176
  | .set (.range xs) => .ok ((sortNum (xs.map .int)).map .incl)
  | .set (.tuple xs) =>
      if xs.length = 2 then .ok ((sortNum xs).map .excl) else .error .assertion  -- 179-183
  | .set (.array xs) => .ok ((sortNum xs).map .incl)                       -- 184-185
  | .set (.list xs) => .ok xs                                              -- 186-188
  | .ty _ => .error .assertion
  | .scalar _ => .error .assertion

/-- One turn of the loop of variable.py:192-208: `own` is the type the variable
already has, `ty` the type found so far. -/
def convStep (own ty : Option Ty) : Lim → Py (Ty × Lim)
  | .excl v =>                                                             -- 193-198
      let t := ty.getD .float
      .ok (t, .excl (if v.isInf then v else t.conv v))
  | .incl v =>
      if v.isInf then .ok (ty.getD .float, .incl v)                        -- 199-201
      else
        match ty with
        | none => .ok (v.ty, .incl (v.ty.conv v))                          -- 203-204, 208
        | some t =>
            if own = none ∧ t ≠ v.ty then .error .type                     -- 205-207
            else .ok (t, .incl (t.conv v))                                 -- 208

/-- The loop of variable.py:191-208. -/
def convLoop (own : Option Ty) : Option Ty → List Lim → Py (Option Ty × List Lim)
  | ty, [] => .ok (ty, [])
  | ty, l :: ls => do
      let (t, l') ← convStep own ty l
      let (ty', ls') ← convLoop own (some t) ls
      return (ty', l' :: ls')

/-- Smallest of a nonempty list of extended numbers. -/
def lowest (x : Ext) (xs : List Ext) : Ext := xs.foldl min x
/-- Greatest of a nonempty list of extended numbers. -/
def highest (x : Ext) (xs : List Ext) : Ext := xs.foldl max x

/-- variable.py:249-276 and 313-366: limits, reordering of the set and the type
used for membership.  Python refuses to compare a number with a tuple, and to
take the minimum of nothing.  The limits of a discrete set of tuples are given
here by their contents. -/
def evalLims (ty : Ty) (vset : List Lim) : Py Var :=
  if ty = .float then
    match vset with                                                        -- 264-276
    | [a, b] =>
        if b.num.value < a.num.value then
          .ok ⟨ty, [b, a], vset, b.num.value, a.num.value, ty⟩
        else .ok ⟨ty, [a, b], vset, a.num.value, b.num.value, ty⟩
    | _ => .error .assertion
  else
    match vset with                                                        -- 259-261
    | [] => .error .value
    | l :: ls =>
        if ls.all (fun m => m.isExcl == l.isExcl) then
          .ok ⟨ty, vset, vset, lowest l.num.value (ls.map (·.num.value)),
            highest l.num.value (ls.map (·.num.value)), ty⟩
        else .error .type

/-- variable.py:169-219: the `vset` setter, for a variable of type `own` (if
any).  An empty list leaves no type: `VTYPES` does not know it, and the minimum
of nothing is refused (259-260). -/
def setVset (own : Option Ty) (arg : Arg) : Py Var := do
  let vset ← toList own arg
  let (ty, vset) ← convLoop own own vset
  match ty with
  | some t => evalLims t vset
  | none => .error .value

/-- NumPy's common type of a list of numbers, `none` for an object array
(vtypes.py:33-39). -/
def promote (xs : List Num) : Option Ty :=
  if xs.any (·.isInf) then none
  else if xs.isEmpty || xs.any (·.ty = .float) then some .float
  else if xs.any (·.ty = .int) then some .int
  else some .bool

/-- vtypes.py:24-54: the type found from an argument given as `vtype`; `none` when
it is none of the three. -/
def Arg.evalTy : Arg → Option Ty
  | .none => Option.none
  | .ty t => some t
  | .scalar v => if v.isInf then Option.none else some v.ty
  | .set (.set xs) => promote xs
  | .set (.tuple xs) => promote xs
  | .set (.array xs) => promote xs
  | .set (.list xs) => promote (xs.map (·.num))
  | .set (.range _) => Option.none

/-- Truth value of an argument; arrays of several entries have none. -/
def Arg.truth : Arg → Py Bool
  | .none => .ok false
  | .ty _ => .ok true
  | .scalar v => .ok (decide (v.value ≠ Ext.ofRat 0))
  | .set (.set xs) => .ok (!xs.isEmpty)
  | .set (.range xs) => .ok (!xs.isEmpty)
  | .set (.tuple xs) => .ok (!xs.isEmpty)
  | .set (.list xs) => .ok (!xs.isEmpty)
  | .set (.array xs) =>
      match xs with
      | [] => .ok false
      | [x] => .ok (decide (x.value ≠ Ext.ofRat 0))
      | _ => .error .value

def Arg.isSet : Arg → Bool
  | .set _ => true
  | _ => false

/-- variable.py:228-241 for a variable that has no set yet: the type is found and
the default set assigned (`DEFAULT_VSETS[...]` raises KeyError otherwise). -/
def setVtypeNew (arg : Arg) : Py Var := do
  let tv ← arg.truth
  let t ← (if tv then (match arg.evalTy with
      | some t => .ok t
      | none => .error .key) else .ok .bool : Py Ty)                       -- 233-239
  setVset (some t) (.set (.list (defaultSet t)))                           -- 240-241

/-- variable.py:82-118: `Variable(name, vset, vtype)`. -/
def init (vset vtype : Arg) : Py Var := do
  let (vt, vs) := if vtype.isSet then (vset, vtype) else (vtype, vset)     -- 108-109
  if ← vt.truth then                                                       -- 112-114
    let v ← setVtypeNew vt
    if ← vs.truth then setVset (some v.ty) vs else return v                -- 115-116
  else if ← vs.truth then setVset none vs
  else setVtypeNew vt                                                      -- 117-118

/-- rv.py:74: `RV(name, vset, vtype)` hands its type and set over in each other's
position.  The probability (75) is not part of this model. -/
def rvInit (vset vtype : Arg) : Py Var := init vtype vset

/-- variable.py:169-219: assigning the set of an existing variable. -/
def Var.assignSet (v : Var) (arg : Arg) : Py Var := setVset (some v.ty) arg

/-- variable.py:228-241: assigning the type of an existing variable (which has a
set): only the type is changed. -/
def Var.assignType (v : Var) (t : Ty) : Var := { v with ty := t }

/-- variable.py:328 and 352-366: `inside(x)`; the test is the one chosen when the
limits were last evaluated, reading the set as it is. -/
def Var.inside (v : Var) (x : ℚ) : Bool :=
  match v.kind, v.vset with
  | .float, [a, b] =>
      (if a.isExcl then decide (v.lo < Ext.ofRat x) else decide (v.lo ≤ Ext.ofRat x)) &&
      (if b.isExcl then decide (Ext.ofRat x < v.hi) else decide (Ext.ofRat x ≤ v.hi))
  | _, vs => vs.any fun l => decide (l.num.value = Ext.ofRat x)

/-- variable.py:333, 339: `isfinite` is false for discrete variables, and tells
whether both limits are finite for floats. -/
def Var.isFinite (v : Var) : Bool :=
  if v.kind = .float then decide (v.lo ≠ ⊥ ∧ v.lo ≠ ((⊤ : WithTop ℚ) : Ext)) &&
    decide (v.hi ≠ ⊥ ∧ v.hi ≠ ((⊤ : WithTop ℚ) : Ext))
  else false

end Probayes.VarInit
