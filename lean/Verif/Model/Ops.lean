/-
Model of the operators `&` and `|` between variables, fields and dependences, with or
without random variables: /repo/probayes/ops.py, /repo/probayes/rv.py 542-570,
/repo/probayes/variable.py 774-783, /repo/probayes/field.py 641-646 and
/repo/probayes/dependence.py 57-178.
-/
import Verif.Model.Dependence

namespace Probayes

/-- An operand: a variable (random or not, as `info` tells), a field (`RF` if `st`,
otherwise `Field`) with its variables, a dependence (`SD` if `st`, otherwise
`Dependence`), or an object of another kind. -/
inductive Operand where
  | var (v : ℕ)
  | field (st : Bool) (vs : List ℕ)
  | dep (st : Bool) (d : DepObj)
  | other

/-- The attribute `is_stochastic` (variable.py:79-80, field.py:51-52); other objects
have none. -/
def Operand.st (info : ℕ → VarInfo) : Operand → Option Bool
  | .var v => some (info v).stoch
  | .field s _ => some s
  | .dep s _ => some s
  | .other => none

/-- `fld(*vars)`.  A random field reads the scale of each variable (rf.py:69-71), which
variables that are not random lack: AttributeError. -/
def newField (info : ℕ → VarInfo) (st : Bool) (vs : List ℕ) : Py (List ℕ) :=
  match fieldOf info st vs with
  | .error e => .error e
  | .ok r => if st && r.any (fun v => !(info v).stoch) then .error .attribute else .ok r

/-- dependence.py:81-88: an argument as a field; TypeError if it is neither of the
class of variables nor of the class of fields: random ones for `SD`, any for
`Dependence` (random classes are subclasses, but a random variable is refused by
`Field`, field.py:201-203). -/
def asField (info : ℕ → VarInfo) (st : Bool) : Operand → Py (List ℕ)
  | .var v => if st && !(info v).stoch then .error .type else newField info st [v]
  | .field s vs => if st && !s then .error .type else .ok vs
  | .dep _ _ => .error .type
  | .other => .error .type

/-- dependence.py:75: `isinstance(arg, type(self))`. -/
def Operand.isDep (st : Bool) : Operand → Bool
  | .dep s _ => s || !st
  | _ => false

/-- The arguments that are dependences; AssertionError if one is not
(dependence.py:112). -/
def asDep (st : Bool) : Operand → Py DepObj
  | .dep s d => if s || !st then .ok d else .error .assertion
  | _ => .error .assertion

/-- `dep(*args)`: dependence.py:64-178. -/
def newDep (info : ℕ → VarInfo) (st : Bool) (args : List Operand) : Py DepObj :=
  if args.any (Operand.isDep st) then do
    let ds ← args.mapM (asDep st)
    depOfDeps info st ds
  else do
    let fs ← args.mapM (asField info st)
    depOfFields info st fs

/-- The stems as arguments. -/
def DepObj.stemArgs (d : DepObj) : List Operand := d.stems.vals.map Operand.var

/-- The roots as argument, if there are any. -/
def DepObj.rootArgs (st : Bool) (d : DepObj) : List Operand :=
  match d.roots with
  | some (r :: rs) => [.field st (r :: rs)]
  | _ => []

/-- ops.py:53-62, rv.py:546-555: a variable and a dependence.  A field is extended by a
list, which raises TypeError (stems), or after its `values` have been asked for, which
raises AttributeError (roots); otherwise the *nodes* of the field become separate
arguments. -/
def varAndDep (info : ℕ → VarInfo) (st : Bool) (v : ℕ) (d : DepObj) : Py Operand := do
  let f ← newField info st (v :: d.leafs)
  if !d.stems.isEmpty then .error .type
  else if !(d.rootArgs st).isEmpty then .error .attribute
  else return .dep st (← newDep info st (f.map Operand.var))

/-- ops.py:31-40: a field and a dependence; `sd` tells the kind of the dependence, whose
roots are of the same kind. -/
def fieldAndDep (info : ℕ → VarInfo) (st : Bool) (vs : List ℕ) (sd : Bool) (d : DepObj) :
    Py Operand := do
  let f ← newField info st (vs ++ d.leafs)
  return .dep st (← newDep info st (.field st f :: (d.stemArgs ++ d.rootArgs sd)))

/-- `fld(*vars)` as an operand. -/
def fieldResult (info : ℕ → VarInfo) (st : Bool) (vs : List ℕ) : Py Operand := do
  return .field st (← newField info st vs)

/-- ops.py:4-73: `and_op`. -/
def andOperands (info : ℕ → VarInfo) (a b : Operand) : Py Operand :=
  match a.st info, b.st info with
  | some sa, some sb =>
      let st := sa || sb                                                    -- 18-20
      match a, b with
      | .dep _ _, b => do return .dep st (← newDep info st [b, a])            -- 23-24
      | .field _ vs, .dep sd d => fieldAndDep info st vs sd d                  -- 28-38
      | .field _ vs, .field _ ws => fieldResult info st (vs ++ ws)           -- 40-42
      | .field _ vs, .var w => fieldResult info st (vs ++ [w])               -- 44-46
      | .var v, .dep _ d => varAndDep info st v d                            -- 53-62
      | .var v, .field _ ws => fieldResult info st (v :: ws)                 -- 64-66
      | .var v, .var w => fieldResult info st [v, w]                         -- 68-69
      | _, _ => .error .type
  | _, _ => .error .assertion                                               -- 14-17

/-- rv.py:542-564: `&` with a random variable first. -/
def rvAnd (info : ℕ → VarInfo) (v : ℕ) : Operand → Py Operand
  | .dep true d => varAndDep info true v d
  | .field true ws => fieldResult info true (v :: ws)
  | .var w => if (info w).stoch then fieldResult info true [v, w] else .error .type
  | _ => .error .type

/-- `a & b`: random variables have a method of their own. -/
def opAnd (info : ℕ → VarInfo) : Operand → Operand → Py Operand
  | .var v, b => if (info v).stoch then rvAnd info v b else andOperands info (.var v) b
  | a, b => andOperands info a b

/-- ops.py:76-93: `or_op`. -/
def orOperands (info : ℕ → VarInfo) (a b : Operand) : Py Operand :=
  match a.st info, b.st info with
  | some sa, some sb =>
      match a, b with
      | .dep _ d, .dep _ e =>
          if (d.roots.getD []).isEmpty || (e.roots.getD []).isEmpty then do
            return .dep (sa || sb) (← newDep info (sa || sb) [a, b])
          else .error .value                                                -- 90-92
      | a, b => do return .dep (sa || sb) (← newDep info (sa || sb) [a, b])
  | _, _ => .error .assertion                                               -- 83-86

/-- `a | b`: random variables have a method of their own (rv.py:567-570). -/
def opOr (info : ℕ → VarInfo) : Operand → Operand → Py Operand
  | .var v, b =>
      if (info v).stoch then do return .dep true (← newDep info true [.var v, b])
      else orOperands info (.var v) b
  | a, b => orOperands info a b

/-- The name of a field (field.py:207) of variables. -/
def varsName (info : ℕ → VarInfo) (vs : List ℕ) : Str :=
  [','].intercalate (vs.map fun v => (info v).name)

/-- The name of an operand: variable.py:86-89, field.py:207, dependence.py:246-253. -/
def Operand.name (info : ℕ → VarInfo) : Operand → Str
  | .var v => (info v).name
  | .field _ vs => varsName info vs
  | .dep _ d => match d.roots with
    | some (r :: rs) => varsName info d.leafs ++ ['|'] ++ varsName info (r :: rs)
    | _ => varsName info d.leafs
  | .other => []

end Probayes
