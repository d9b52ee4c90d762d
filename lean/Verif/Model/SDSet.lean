/-
Model of what proposes and steps in a stochastic dependence: `set_prop`, `set_tran`,
`set_tfun`, `set_delta`, `propose`, `step` and `sample` of /repo/probayes/sd.py and
/repo/probayes/dependence.py, with those of /repo/probayes/rf.py and
/repo/probayes/field.py they pass on to.
-/
import Verif.Base.Py
import Verif.Base.Dict
import Mathlib.Data.Finset.Dedup
import Mathlib.Data.Finset.Card

namespace Probayes

/-- What can be set: a function, a pair of functions, a number, or a random field (which
is callable, and thereby a function to whoever does not know it).  Functions are
numbered; distribution objects, arrays and conditional functions are not modelled. -/
inductive SetVal where
  | fn (v : ℕ)
  | pair (v w : ℕ)
  | scalar (v : ℕ)
  | rf (n : ℕ)
deriving DecidableEq

/-- What has been set on a random field. -/
structure FieldSt where
  prop : Option SetVal
  tran : Option SetVal
  tfun : Option SetVal
  delta : Option SetVal

/-- `callable(...)`. -/
def SetVal.isFn : SetVal → Bool
  | .fn _ | .rf _ => true
  | _ => false

/-- rf.py:146-161.  The proposal is assigned before it is refused. -/
def FieldSt.setProp (s : FieldSt) : Option SetVal → FieldSt × Option Err
  | none => ({ s with prop := none }, none)
  | some v => ({ s with prop := some v }, if s.tran.isSome then some .assertion else none)

/-- rf.py:169-239: a conditional function is made unless there is one variable only
(lines 229-238); of a field with roots or stems there is none (cf.py:16-18). -/
def FieldSt.setTran (nvars : ℕ) (rooted : Bool) (s : FieldSt) : Option SetVal → FieldSt × Option Err
  | none => ({ s with tran := none }, none)
  | some v => ({ s with tran := some v },
      if s.prop.isSome then some .assertion
      else if nvars = 1 then none
      else if rooted then some .assertion else none)

/-- rf.py:247-304: functions are made conditional functions, of several variables without
roots or stems (cf.py:16-18, 110-112); what is not callable must be an array. -/
def FieldSt.setTfun (nvars : ℕ) (rooted : Bool) (s : FieldSt) : Option SetVal → FieldSt × Option Err
  | none => ({ s with tfun := none }, none)
  | some v => ({ s with tfun := some v },
      if v.isFn then if rooted || nvars < 2 then some .assertion else none else some .assertion)

/-- field.py:212-309: functions are kept; a number becomes a delta, of the names `typ` of
the type of deltas, from values under the names `own` of the field: other names are a
TypeError (line 291).  Tuples are kept.  Scaling is not modelled. -/
def FieldSt.setDelta (own typ : Finset Str) (s : FieldSt) : Option SetVal → FieldSt × Option Err
  | none => ({ s with delta := none }, none)
  | some v => ({ s with delta := some v },
      match v with
      | .scalar _ => if own = typ then none else some .type
      | _ => none)

/-- Objects that may propose or step: the dependence itself, a random field, or the
dictionary of subfields that `leafs_roots(None)` returns. -/
inductive SDWho where
  | self
  | rf (n : ℕ)
  | dict
deriving DecidableEq

/-- A dependence of random variables.  Random fields are numbered; `keys` are their names. -/
structure SDInfo where
  keys : ℕ → Finset Str
  own : Finset Str
  leafs : ℕ
  roots : Option ℕ
  stems : Bool
  unitTran : Bool

/-- The state: what is set on the dependence and on all fields, `prop_obj`, and the field
whose deltas are used (`_delta_type`). -/
structure SDSt where
  me : FieldSt
  rfs : ℕ → FieldSt
  propObj : Option SDWho
  dtype : ℕ

/-- dependence.py:255-263, sd.py:36-42: nothing set on the dependence, whatever is on the
fields. -/
def SDSt.new (d : SDInfo) (rfs : ℕ → FieldSt) : SDSt :=
  ⟨⟨none, none, none, none⟩, rfs, none, d.roots.getD d.leafs⟩

/-- An argument of the setting functions. -/
inductive SetArg where
  | none
  | str (s : Str)
  | val (v : SetVal)

/-- dependence.py:251-257: the subfields by name. -/
def SDInfo.sub (d : SDInfo) (s : Str) : Option ℕ :=
  if s = "leafs".toList then some d.leafs
  else if s = "roots".toList then d.roots
  else none

/-- dependence.py:316-326: `.ok (some obj)` if the argument stands for an object (random
fields compare by their names, rf.py:647-651), `.ok none` if not. -/
def SDInfo.leafsRoots (d : SDInfo) : SetArg → Py (Option SDWho)
  | .none => .ok (some .dict)
  | .str s =>
      match d.sub s with
      | some n => .ok (some (.rf n))
      | none => .error .assertion
  | .val (.rf n) =>
      .ok (if d.keys n = d.keys d.leafs ∨ ∃ r, d.roots = some r ∧ d.keys n = d.keys r then some (.rf n)
        else none)
  | .val _ => .ok none

/-- What a value that stands for no subfield is passed on as. -/
def SetArg.given : SetArg → Option SetVal
  | .val v => some v
  | _ => Option.none

/-- cf.py:17: has it roots or stems? -/
def SDInfo.rooted (d : SDInfo) : Bool := d.roots.isSome || d.stems

/-- The four settings. -/
inductive Setting where
  | prop
  | tran
  | tfun
  | delta
deriving DecidableEq

/-- The setting of a field. -/
def FieldSt.held (s : FieldSt) : Setting → Option SetVal
  | .prop => s.prop
  | .tran => s.tran
  | .tfun => s.tfun
  | .delta => s.delta

/-- Assigning it. -/
def FieldSt.hold (s : FieldSt) (v : Option SetVal) : Setting → FieldSt
  | .prop => { s with prop := v }
  | .tran => { s with tran := v }
  | .tfun => { s with tfun := v }
  | .delta => { s with delta := v }

/-- The setting functions of a random field. -/
def FieldSt.set (nvars : ℕ) (rooted : Bool) (own typ : Finset Str) (s : FieldSt) (v : Option SetVal) :
    Setting → FieldSt × Option Err
  | .prop => s.setProp v
  | .tran => s.setTran nvars rooted v
  | .tfun => s.setTfun nvars rooted v
  | .delta => s.setDelta own typ v

/-- sd.py:88-116, dependence.py:307-313, 329-339.  Of a subfield the setting is taken
over, and it becomes `prop_obj`; the dictionary has no deltas: AttributeError, after it has
become `prop_obj`.  (`_tran_obj` and the flag of symmetry are not modelled.) -/
def SDSt.set (d : SDInfo) (s : SDSt) (a : SetArg) (k : Setting) : SDSt × Option Err :=
  match d.leafsRoots a with
  | .error e => (s, some e)
  | .ok none =>
      let r := s.me.set d.own.card d.rooted d.own (d.keys s.dtype) a.given k
      ({ s with me := r.1 }, r.2)
  | .ok (some (.rf n)) =>
      ({ s with me := s.me.hold ((s.rfs n).held k) k, propObj := some (.rf n), dtype := n }, none)
  | .ok (some o) => ({ s with propObj := some o }, some .attribute)

/-- Setting on the dependence, or on one of the random fields. -/
inductive SDOp where
  | me (a : SetArg) (k : Setting)
  | rf (n : ℕ) (v : Option SetVal) (k : Setting)

/-- One setting: the state left and the exception if one is raised. -/
def SDSt.apply (d : SDInfo) (s : SDSt) : SDOp → SDSt × Option Err
  | .me a k => s.set d a k
  | .rf n v k =>
      let r := (s.rfs n).set (d.keys n).card false (d.keys n) (d.keys n) v k
      ({ s with rfs := Function.update s.rfs n r.1 }, r.2)

/-- Several settings, exceptions being caught. -/
def SDSt.run (d : SDInfo) (s : SDSt) (ops : List SDOp) : SDSt :=
  ops.foldl (fun s op => (s.apply d op).1) s

/-- What `sample` does: evaluates the probability only, or first proposes from or steps
with an object. -/
inductive SDAct where
  | call
  | propose (o : SDWho)
  | step (o : SDWho)
deriving DecidableEq

/-- sd.py:164-169: the object that proposes; the dictionary has no such function. -/
def SDSt.proposer (d : SDInfo) (s : SDSt) : Py SDWho :=
  match s.propObj with
  | none => .ok (if s.me.tran.isSome || s.me.prop.isSome then .self else .rf (d.roots.getD d.leafs))
  | some .dict => .error .attribute
  | some o => .ok o

/-- dependence.py:447-452: the object that steps. -/
def SDSt.stepper (s : SDSt) : Py SDWho :=
  match s.propObj with
  | none => .ok .self
  | some .dict => .error .attribute
  | some o => .ok o

/-- sd.py:219-225 with 228-236, 253-271. -/
def SDSt.sample (d : SDInfo) (s : SDSt) : Py SDAct :=
  if s.me.tran.isNone && s.me.tfun.isNone && !d.unitTran then
    if s.me.prop.isNone then .ok .call
    else do return .propose (← s.proposer d)
  else do return .step (← s.stepper)

/-- The settings of an object. -/
def SDSt.settings (s : SDSt) : SDWho → Option FieldSt
  | .self => some s.me
  | .rf n => some (s.rfs n)
  | .dict => none

end Probayes
