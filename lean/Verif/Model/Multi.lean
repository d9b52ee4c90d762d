/-
Model of multiple functions: indexing an `Expression` (/repo/probayes/expression.py)
and a `Func` (/repo/probayes/func.py).
-/
import Mathlib.Data.List.GetD
import Mathlib.Algebra.Order.Ring.Int
import Verif.Base.Dict

namespace Probayes

/-- What `set_expr` observes of a member (expression.py:210-213): whether it is
callable, a lambda (expression.py:16-20: `None` for callables that are not
functions), a scalar, and iconic (symbolic). -/
structure Member where
  callable : Bool
  lambda : Option Bool
  scalar : Bool
  iconic : Bool

/-- expression.py:16-20, for a member with its name being `<lambda>` or not. -/
def islambda (callable isfunction namedLambda : Bool) : Option Bool :=
  if !callable then some false
  else if isfunction then some namedLambda
  else none

/-- `len(set(l)) < 2`. -/
def sameAll {α : Type} [DecidableEq α] : List α → Bool
  | a :: l => l.all fun b => decide (b = a)
  | [] => true

/-- expression.py:202-231: the checks of a tuple or dictionary; `opts` tells whether
arguments or keywords are given. -/
def multiCheck (ms : List Member) (opts : Bool) : Py Unit :=
  if !sameAll (ms.map Member.callable) then .error .assertion
  else if !sameAll (ms.map Member.lambda) then .error .assertion
  else if !sameAll (ms.map Member.scalar) then .error .assertion
  else if !sameAll (ms.map Member.iconic) then .error .assertion
  else
    let callable := (ms.head?.map Member.callable).getD false
    let iconic := (ms.head?.map Member.iconic).getD false
    if !callable && opts then .error .assertion
    else if iconic && opts then .error .assertion
    else .ok ()

/-- Several functions: a tuple or a dictionary. -/
inductive Multi (F : Type) where
  | tuple (fs : List F)
  | dict (d : Dict Str F)

/-- An index of a multiple. -/
inductive MKey where
  | pos (i : ℤ)
  | name (s : Str)
deriving DecidableEq

/-- The members of a tuple keyed by position (expression.py:236-238, 358-361). -/
def numbered {F : Type} : ℕ → List F → Dict MKey F
  | _, [] => []
  | i, f :: fs => (.pos i, f) :: numbered (i + 1) fs

/-- expression.py:337-346, 357-373.  The key -1 is added for tuples that are not
iconic (iconic ones have become a dictionary); an empty tuple raises an
UnboundLocalError (here an attribute error). -/
def partials {F : Type} (iconic : Bool) : Multi F → Py (Dict MKey F)
  | .tuple fs =>
      if iconic then .ok (numbered 0 fs)
      else match fs.getLast? with
        | none => .error .attribute
        | some f => .ok (numbered 0 fs ++ [(.pos (-1), f)])
  | .dict d => .ok (d.map fun kv => (.name kv.1, kv.2))

/-- expression.py:468-482. -/
def multiItem {F : Type} (p : Dict MKey F) (k : MKey) : Py F :=
  match Dict.get? p k with
  | some f => .ok f
  | none => .error .key

/-- expression.py:485-489. -/
def multiLen {F : Type} (p : Dict MKey F) : ℕ := p.length

/-- A use of a multiple: indexing it, which returns a handle, or calling the
handle returned by an earlier indexing. -/
inductive Use where
  | index (k : MKey)
  | call (handle : ℕ)

/-- What uses give: nothing (a handle), the member called, or an exception. -/
inductive Outcome (F : Type) where
  | handle
  | called (f : F)
  | raised (e : Err)

/-- Uses of an `Expression`: a handle is the partial function of its member, no
handle is returned when indexing raises. -/
def exprUses {F : Type} (p : Dict MKey F) : List F → List Use → List (Outcome F)
  | _, [] => []
  | hs, .index k :: us => match multiItem p k with
    | .ok f => .handle :: exprUses p (hs ++ [f]) us
    | .error e => .raised e :: exprUses p hs us
  | hs, .call h :: us => match hs[h]? with
    | some f => .called f :: exprUses p hs us
    | none => .raised .index :: exprUses p hs us

/-- `func[i]` for a Python tuple. -/
def tupleItem {F : Type} (fs : List F) : MKey → Py F
  | .name _ => .error .type
  | .pos i =>
      let j := if i < 0 then i + fs.length else i
      if 0 ≤ j then
        match fs[j.toNat]? with
        | some f => .ok f
        | none => .error .index
      else .error .index

/-- Uses of a `Func` of several functions (func.py:229-264, 346-354): indexing
stores the index and returns the same bound method; the call reads and resets it.
Without an index the tuple itself is called (TypeError); a wrong index stays. -/
def funcUses {F : Type} (fs : List F) : Option MKey → List Use → List (Outcome F)
  | _, [] => []
  | _, .index k :: us => .handle :: funcUses fs (some k) us
  | none, .call _ :: us => .raised .type :: funcUses fs none us
  | some k, .call _ :: us => match tupleItem fs k with
    | .ok f => .called f :: funcUses fs none us
    | .error e => .raised e :: funcUses fs (some k) us

end Probayes
