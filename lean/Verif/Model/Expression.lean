/-
Model of /repo/probayes/expression.py: routing of arguments by order and delta
mappings.
-/
import Verif.Base.Py
import Verif.Base.Dict
import Mathlib.Data.List.Basic
import Mathlib.Algebra.Order.Ring.Int

namespace Probayes

/-- A value of a mapping dictionary. -/
inductive Route where
  | pos (i : ℤ)        -- `type(val) is int`
  | drop               -- None
  | key (k : Str)      -- a string
  | other              -- anything else

/-- A positional argument: a value, None, or a dictionary. -/
inductive PArg (V : Type) where
  | val (v : V)
  | none
  | dict (d : Dict Str V)

/-- The call finally made: positional and keyword arguments. -/
structure Call (V : Type) where
  args : List (PArg V)
  kwds : Dict Str V

/-- The integer positions of a mapping (expression.py:285-290). -/
def Route.ints : List Route → List ℤ
  | [] => []
  | .pos i :: l => i :: Route.ints l
  | _ :: l => Route.ints l

/-- Neither int, None nor str. -/
def Route.isOther : Route → Bool
  | .other => true
  | _ => false

/-- expression.py:272-297 for non-iconic expressions and dictionaries.  The
TypeError of line 293 is an AttributeError: it evaluates `"...".ind`. -/
def checkMapping (m : Dict Str Route) : Py Unit :=
  if m.vals.any Route.isOther then .error .attribute
  else
    let inds := Route.ints m.vals
    if inds.all (fun i => inds.all fun j =>
        (List.range (j - i).toNat).all fun d => (i + d) ∈ inds) then .ok ()
    else .error .assertion

/-- The mappings of an expression. -/
structure ExprMaps where
  order : Option (Dict Str Route)
  delta : Option (Dict Str Route)

/-- expression.py:246-255: the attribute is assigned before the checks. -/
def setOrder (s : ExprMaps) (order : Option (Dict Str Route)) : ExprMaps × Option Err :=
  match order with
  | none => ({ s with order := none }, none)
  | some m =>
      ({ s with order := some m },
        if s.delta.isSome then some .assertion
        else match checkMapping m with
          | .ok _ => none
          | .error e => some e)

/-- expression.py:258-269, for non-iconic expressions. -/
def setDelta (s : ExprMaps) (delta : Option (Dict Str Route)) : ExprMaps × Option Err :=
  match delta with
  | none => ({ s with delta := none }, none)
  | some m =>
      ({ s with delta := some m },
        if s.order.isSome then some .assertion
        else match checkMapping m with
          | .ok _ => none
          | .error e => some e)

/-- `d.pop(k)`: the value and the remaining dictionary; KeyError. -/
def Dict.pop {V : Type} (d : Dict Str V) (k : Str) : Py (V × Dict Str V) :=
  match d.get? k with
  | some v => .ok (v, d.erase k)
  | none => .error .key

/-- `args[i] = v` on a Python list, with negative indices; IndexError. -/
def setArg {V : Type} (args : List (PArg V)) (i : ℤ) (v : PArg V) : Py (List (PArg V)) :=
  let j := if i < 0 then i + args.length else i
  if 0 ≤ j ∧ j < args.length then .ok (args.set j.toNat v) else .error .index

/-- expression.py:407-414: extend the positional arguments with None. -/
def padArgs {V : Type} (args : List (PArg V)) (m : Dict Str Route) : List (PArg V) :=
  let n := (Route.ints m.vals).foldl (fun n i => max n (i + 1)) (args.length : ℤ)
  args ++ List.replicate (n.toNat - args.length) .none

/-- Put a value where the mapping says (expression.py:419-427, 438-446). -/
def route {V : Type} (c : Call V) (v : V) : Route → Py (Call V)
  | .pos i => match setArg c.args i (.val v) with
    | .ok a => .ok { c with args := a }
    | .error e => .error e
  | .drop => .ok c
  | .key k => .ok { c with kwds := c.kwds.set k v }
  | .other => .error .type

/-- expression.py:417-427. -/
def orderLoop {V : Type} : Dict Str Route → Call V → Py (Call V)
  | [], c => .ok c
  | (k, r) :: m, c => match c.kwds.pop k with
    | .error e => .error e
    | .ok (v, kw) => match route { c with kwds := kw } v r with
      | .error e => .error e
      | .ok c' => orderLoop m c'

/-- expression.py:432-435: the value of an entry of a delta mapping: the keyword
itself, or, for a primed key, its difference to the unprimed one. -/
def deltaValue {V : Type} (sub : V → V → V) (k : Str) (kw : Dict Str V) : Py (V × Dict Str V) :=
  match k.getLast? with
  | none => .error .index
  | some c =>
      if c ≠ '\'' then kw.pop k
      else match kw.pop k with
        | .error e => .error e
        | .ok (a, kw1) => match kw1.pop k.dropLast with
          | .error e => .error e
          | .ok (b, kw2) => .ok (sub a b, kw2)

/-- expression.py:431-446. -/
def deltaLoop {V : Type} (sub : V → V → V) : Dict Str Route → Call V → Py (Call V)
  | [], c => .ok c
  | (k, r) :: m, c => match deltaValue sub k c.kwds with
    | .error e => .error e
    | .ok (v, kw) => match route { c with kwds := kw } v r with
      | .error e => .error e
      | .ok c' => deltaLoop sub m c'

/-- Truth value of a mapping: neither None nor empty. -/
def truthy (m : Option (Dict Str Route)) : Option (Dict Str Route) :=
  match m with
  | some [] => none
  | m => m

/-- expression.py:391-393: a single dictionary argument denotes keywords. -/
def unpackDict {V : Type} (c : Call V) : Call V :=
  match c.args with
  | [.dict d] => ⟨[], d.foldl (fun acc kv => acc.set kv.1 kv.2) c.kwds⟩
  | _ => c

/-- expression.py:376-449 for a callable, non-iconic expression with string
keywords; `lambda0` tells whether it is a lambda without arguments.  The result is
the call made to the expression. -/
def exprCall {V : Type} (sub : V → V → V) (s : ExprMaps) (lambda0 : Bool) (c : Call V) :
    Py (Call V) :=
  let c := unpackDict c
  match truthy s.order, truthy s.delta with
  | none, none =>
      if lambda0 then
        if c.args.isEmpty then .ok ⟨[], []⟩ else .error .assertion
      else .ok c
  | some m, _ => orderLoop m { c with args := padArgs c.args m }
  | none, some m => deltaLoop sub m { c with args := padArgs c.args m }

/-- expression.py:352-356, 451-466: the default arguments and keywords of the
expression come first (`functools.partial`). -/
def exprPartial {V : Type} (sub : V → V → V) (s : ExprMaps) (lambda0 : Bool) (dflt c : Call V) :
    Py (Call V) :=
  exprCall sub s lambda0
    ⟨dflt.args ++ c.args, c.kwds.foldl (fun acc kv => acc.set kv.1 kv.2) dflt.kwds⟩

end Probayes
