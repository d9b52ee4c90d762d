/-
Model of /repo/probayes/icon.py 8-100 (class `Icon`) and of the parts of /repo/probayes/variable.py
that have to do with it: 106, 121, 126-137, 411-453, 755-771.
-/
import Verif.Base.Dict

namespace Probayes

/-- A Sympy object: an identifier, whether it is callable, its truth value (relations have none and
raise TypeError) and its members: the names listed by `dir`, each with the value that `getattr`
gives, or none if that raises AttributeError.  Members that raise other exceptions are left out. -/
structure SymObj (V : Type) where
  id : ℕ
  callable : Bool
  truth : Py Bool
  members : Dict Str (Option V)

/-- What may be passed to `set_icon`: Sympy objects, strings, and anything else. -/
inductive IconArg (V : Type) where
  | sym (s : SymObj V)
  | text (t : Str)
  | other (n : ℕ)

/-- An `Icon`: the names that its class and its instances define themselves, the object stored
(icon.py:45, also one that was refused) and the attributes copied. -/
structure IconObj (V : Type) where
  own : List Str
  icon : Option (IconArg V)
  copied : Dict Str V

variable {V : Type}

/-- icon.py:16-17: only objects that cannot be called are iconic. -/
def IconArg.isIconic : IconArg V → Bool
  | .sym s => !s.callable
  | _ => false

/-- `hasattr(self, member)`. -/
def IconObj.hasattr (o : IconObj V) (m : Str) : Bool :=
  decide (m ∈ o.own) || decide (m ∈ o.copied.keys)

/-- icon.py:74: the member that is passed over. -/
def iconSkipped : Str := "expr_free_symbols".toList

/-- icon.py:72-82: the members are copied one by one, unless there is one of that name. -/
def IconObj.copy : IconObj V → Dict Str (Option V) → IconObj V
  | o, [] => o
  | o, (m, v) :: ms =>
      if m = iconSkipped then o.copy ms
      else if o.hasattr m then o.copy ms
      else match v with
        | some v => { o with copied := o.copied.set m v }.copy ms
        | none => o.copy ms

/-- icon.py:55-82.  `mk` is `sympy.Symbol` with the further arguments passed.  The object is stored
before it is examined, so that it stays if it is refused. -/
def IconObj.setIcon (mk : Str → Py (SymObj V)) (o : IconObj V) (a : IconArg V) : IconObj V × Option Err :=
  let o := { o with icon := some a }                                      -- 62
  match a with
  | .sym s => if a.isIconic then (o.copy s.members, none) else (o, some .type)
  | .text t =>
      match mk t with                                                     -- 66
      | .ok s => ({ o with icon := some (.sym s) }.copy s.members, none)
      | .error e => (o, some e)
  | .other _ => (o, some .type)                                           -- 68

/-- `o.member`, for names that the class does not define. -/
def IconObj.getattr (o : IconObj V) (m : Str) : Py V :=
  match o.copied.get? m with
  | some v => .ok v
  | none => .error .attribute

/-- icon.py:95-100: `o[:]`, or with any other index. -/
def IconObj.getitem (o : IconObj V) (whole : Bool) : Py (Option (IconArg V)) :=
  if whole then .ok o.icon else .error .assertion

/-- Calls of `set_icon` one after another, going on after those that raise. -/
def IconObj.run (mk : Str → Py (SymObj V)) (o : IconObj V) (as : List (IconArg V)) : IconObj V :=
  as.foldl (fun o a => (o.setIcon mk a).1) o

/-- A `Variable`: what it is as an `Icon`, its name, whether it is stochastic (variable.py:71) and
its deterministic expression (variable.py:72). -/
structure VarObj (V : Type) where
  obj : IconObj V
  name : Str
  stochastic : Bool
  dexpr : Option (SymObj V)

/-- variable.py:106, 121: a new variable; its sets and types are left out. -/
def VarObj.init (mk : Str → Py (SymObj V)) (own : List Str) (stochastic : Bool) (name : Str) :
    VarObj V × Option Err :=
  let r := IconObj.setIcon mk ⟨own, none, []⟩ (.text name)
  (⟨r.1, name, stochastic, none⟩, r.2)

/-- variable.py:416-453: None stands for the name. -/
def VarObj.setIcon (mk : Str → Py (SymObj V)) (v : VarObj V) (a : Option (IconArg V)) : VarObj V × Option Err :=
  let r := v.obj.setIcon mk (a.getD (.text v.name))
  ({ v with obj := r.1 }, r.2)

/-- variable.py:134-137: the setter of `name`, for names that a namedtuple may have. -/
def VarObj.setName (v : VarObj V) (name : Str) : VarObj V := { v with name := name }

/-- variable.py:761-763: the setter of `dexpr`. -/
def VarObj.setDexpr (v : VarObj V) (d : Option (SymObj V)) : VarObj V :=
  { v with dexpr := if v.stochastic then none else d }

/-- What reading an attribute of a variable may give. -/
inductive VarRead (V : Type) where
  | text (t : Str)
  | expr (d : Option (SymObj V))

/-- Reading `v.name` (variable.py:126-128). -/
def VarObj.getName (v : VarObj V) : VarRead V := .text v.name

/-- Reading `v.dexpr`: variable.py:761 makes the property from that of `name` by replacing its
setter, so that the getter is that of `name` (126-128), not the one of lines 755-759. -/
def VarObj.getDexpr (v : VarObj V) : VarRead V := v.getName

/-- variable.py:766-771: `self._dexpr or self._icon`. -/
def VarObj.getitem (v : VarObj V) (whole : Bool) : Py (Option (IconArg V)) :=
  if whole then
    match v.dexpr with
    | none => .ok v.obj.icon
    | some d =>
        match d.truth with
        | .ok true => .ok (some (.sym d))
        | .ok false => .ok v.obj.icon
        | .error e => .error e
  else .error .assertion

end Probayes
