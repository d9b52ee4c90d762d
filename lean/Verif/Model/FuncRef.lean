/-
Model of /repo/probayes/func.py 70-186, 239-322, 348-370 (class `Func`, except for Scipy objects) and
of /repo/probayes/cf.py 136-167, 199-218 (class `CF`): objects or functions, single or several, that
are indexed and called.
-/
import Verif.Model.FnCall

namespace Probayes

/-- What is wrapped: functions (by number), scalars and other objects that cannot be called. -/
inductive FItem where
  | fn (id : ℕ)
  | scalar (id : ℕ)
  | other (id : ℕ)
deriving DecidableEq

/-- `callable(func)`. -/
def FItem.isFn : FItem → Bool
  | .fn _ => true
  | _ => false

/-- `isscalar(func)`. -/
def FItem.isScalar : FItem → Bool
  | .scalar _ => true
  | _ => false

/-- The object given to `set_func`: None, a single object, or a tuple. -/
inductive FBody where
  | none
  | one (x : FItem)
  | many (xs : List FItem)

/-- func.py:101-117: whether it can be called (`None` and empty tuples cannot). -/
def FBody.isFn : FBody → Bool
  | .none => false
  | .one x => x.isFn
  | .many [] => false
  | .many (x :: _) => x.isFn

/-- func.py:101: `isinstance(self._func, tuple)`. -/
def FBody.isMulti : FBody → Bool
  | .many _ => true
  | _ => false

/-- func.py:109-112: all alike. -/
def FBody.alike : FBody → Bool
  | .many (x :: xs) => xs.all fun y => y.isFn == x.isFn && y.isScalar == x.isScalar
  | _ => true

/-- A `Func` or `CF`: the object, its own arguments, the mappings, the index that is
pending (func.py:68) and the unknown that is pending (cf.py:60); `names` tells whether
the inputs are given by names (`__inpdict`, cf.py:59, 96). -/
structure FuncState (V : Type) where
  body : FBody
  own : Call V
  maps : ExprMaps
  index : Option ℤ
  unknown : Option Str
  names : Bool

variable {V : Type}

/-- func.py:76-135 (and cf.py:136-167 for objects that are not themselves a `Func`,
without `passdims` and `passprob`).  The keywords `order` and `delta` may be absent or given
as None.  The index and unknown that are pending are not reset.  Scipy objects are left out. -/
def FuncState.setFunc (s : FuncState V) (body : FBody) (own : Call V)
    (order delta : Option (Option (Dict Str Route))) : FuncState V × Option Err :=
  let s := { s with body := body, own := own, maps := ⟨none, none⟩ }
  if body.isFn = false ∧ (own.args ≠ [] ∨ own.kwds ≠ [] ∨ order.isSome ∨ delta.isSome) then
    (s, some .assertion)                                            -- 99-100, 105-106, 116-117
  else if body.alike = false then (s, some .assertion)              -- 109-112
  else
    let (m, e) := match order with                                  -- 131-132
      | some o => setOrder s.maps o
      | none => (s.maps, none)
    match e with
    | some e => ({ s with maps := m }, some e)
    | none =>
        let (m, e) := match delta with                              -- 133-134
          | some d => setDelta m d
          | none => (m, none)
        ({ s with maps := m }, e)

/-- What a call or an index gives. -/
inductive FuncOut (V : Type) where
  | called (id : ℕ) (c : Call V)    -- the value of this function for these arguments
  | object (x : FItem)              -- an object that cannot be called
  | body (b : FBody)                -- what was given to `set_func`
  | reference                       -- the method `_call`

/-- `func[i]` of a tuple: negative indices count from the end; IndexError. -/
def itemAt (xs : List FItem) (i : ℤ) : Py FItem :=
  let j := if i < 0 then i + xs.length else i
  if 0 ≤ j then
    match xs[j.toNat]? with
    | some x => .ok x
    | none => .error .index
  else .error .index

/-- func.py:267-322: the call made, given what is to be called. -/
def FuncState.pass (sub : V → V → V) (s : FuncState V) (b : FBody) (c : Call V) : Py (FuncOut V) :=
  if s.body.isFn = false then                                       -- 267-269
    if c.args.isEmpty && c.kwds.isEmpty then
      match b with
      | .one x => .ok (.object x)
      | b => .ok (.body b)
    else .error .assertion
  else do
    let c := unpackDict c                                           -- 272-273
    let c : Call V := ⟨s.own.args ++ c.args, kwdsOver c.kwds s.own.kwds⟩  -- 274-277
    let c ← match truthy s.maps.order, truthy s.maps.delta with     -- 278-322
      | none, none => pure c
      | some m, _ => orderLoop m { c with args := padArgs c.args m }
      | none, some m => deltaLoop sub m { c with args := padArgs c.args m }
    match b with
    | .one (.fn i) => .ok (.called i c)
    | _ => .error .type                                             -- a tuple is not callable

/-- func.py:239-322: `_call`.  The pending index is only reset when the object has been found. -/
def FuncState.callRef (sub : V → V → V) (s : FuncState V) (c : Call V) : FuncState V × Py (FuncOut V) :=
  match s.index with
  | none => (s, s.pass sub s.body c)
  | some i =>
      match s.body with
      | .many xs =>
          match itemAt xs i with
          | .ok x => ({ s with index := none }, { s with index := none }.pass sub (.one x) c)
          | .error e => (s, .error e)
      | _ => (s, .error .type)           -- an index that was pending when the object was replaced

/-- cf.py:212-218: `_call` of a `CF`; `str` is a string as a value. -/
def FuncState.use (sub : V → V → V) (str : Str → V) (s : FuncState V) (c : Call V) : FuncState V × Py (FuncOut V) :=
  match s.unknown with
  | none => s.callRef sub c
  | some k =>
      { s with unknown := none }.callRef sub
        { c with kwds := c.kwds.set ['u', 'n', 'k', 'n', 'o', 'w', 'n'] (str k) }

/-- What is done with the object: `f[None]`, `f[i]`, `f[name]`, a call of one of the
references returned before (all of which are the same method), and `f(...)`. -/
inductive FEvent (V : Type) where
  | show
  | get (i : ℤ)
  | name (k : Str)
  | use (c : Call V)
  | call (c : Call V)

/-- func.py:348-364, cf.py:199-209.  A `Func` is a `CF` of which no names are asked. -/
def FuncState.act (sub : V → V → V) (str : Str → V) (s : FuncState V) : FEvent V → FuncState V × Py (FuncOut V)
  | .show => (s, .ok (.body s.body))
  | .get i => if s.body.isMulti then ({ s with index := some i }, .ok .reference) else (s, .error .assertion)
  | .name k => if s.names then ({ s with unknown := some k }, .ok .reference) else (s, .error .assertion)
  | .use c => s.use sub str c
  | .call c => if s.body.isMulti then (s, .error .assertion) else s.use sub str c

/-- The state after a history. -/
def FuncState.after (sub : V → V → V) (str : Str → V) (s : FuncState V) (h : List (FEvent V)) : FuncState V :=
  h.foldl (fun s e => (s.act sub str e).1) s

end Probayes
