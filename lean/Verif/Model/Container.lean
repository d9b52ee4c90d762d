/-
Model of fields as collections: /repo/probayes/field.py 161-187, 204-206 (length, names),
599-625 (`subfield`), 649-667 (`==`, `!=`, `[]`), /repo/probayes/rf.py 645-649, and of the
functions that make several variables (variable.py 788-792, rv.py 584-588).
-/
import Verif.Model.Field
import Mathlib.Data.List.SplitOn

namespace Probayes

/-- `xs[i]` for a list and an integer: negative integers count from the end. -/
def pyIndex {α : Type} (xs : List α) (i : ℤ) : Py α :=
  let k := if i < 0 then i + xs.length else i
  if k < 0 then .error .index
  else match xs[k.toNat]? with
    | some x => .ok x
    | none => .error .index

/-- What a field may be indexed with; other types are not modelled (they end in a KeyError or
TypeError of the dictionary). -/
inductive FieldKey where
  | int (i : ℤ)
  | str (n : Str)

/-- field.py:661-667 (for random fields without a SymPy expression, rf.py:652-656, the same): the
variable, or `None` for an unknown name. -/
def FieldState.getitem (s : FieldState) : FieldKey → Py (Option ℕ)
  | .int i => do
      let key ← pyIndex s.vars.keys i                                    -- 662-663
      match s.vars.get? key with                                         -- 667
      | some v => .ok (some v)
      | none => .error .key
  | .str n =>
      if n ∈ s.vars.keys then                                            -- 665-666
        match s.vars.get? n with                                         -- 667
        | some v => .ok (some v)
        | none => .error .key
      else .ok none

/-- field.py:161-162: `len(field)`. -/
def FieldState.len (s : FieldState) : ℕ := s.nvars

/-- field.py:207: the name of a field. -/
def FieldState.name (s : FieldState) : Str := [','].intercalate s.vars.keys

/-- A vertex given to `subfield`. -/
inductive Vertex where
  | var (v : ℕ)
  | name (n : Str)
  | field
  | other

/-- field.py:614-624: the variables of one vertex.  A field is asked for its `ret_vars`, which no
class defines. -/
def FieldState.vertex (s : FieldState) : Vertex → Py ℕ
  | .field => .error .attribute
  | .var v => .ok v
  | .name n => match s.vars.get? n with
      | some v => .ok v
      | none => .error .key
  | .other => .error .type

/-- field.py:599-625.  The result is always a `Field` (never a random field), hence not stochastic.
A single vertex is a list of one (607-610). -/
def FieldState.subfield (info : ℕ → VarInfo) (s : FieldState) (vertices : List Vertex) :
    Py FieldState := do
  let vs ← vertices.mapM s.vertex
  match mkField info false vs with
  | (t, none) => .ok t
  | (_, some e) => .error e

/-- The classes whose equality differs. -/
inductive FieldClass where
  | field   -- exactly `Field`
  | rf      -- exactly `RF`
  | other   -- any other subclass (`Dependence`, `SD`, `SP`)
deriving DecidableEq

/-- A field object: its identity, class and state. -/
structure FieldObj where
  ident : ℕ
  cls : FieldClass
  state : FieldState

/-- field.py:653 and rf.py:649: `frozenset` equality of the names. -/
def sameKeyset (s t : FieldState) : Bool :=
  s.vars.keys.all (fun n => decide (n ∈ t.vars.keys)) &&
    t.vars.keys.all (fun n => decide (n ∈ s.vars.keys))

/-- `a.__eq__(b)` (field.py:649-653, rf.py:645-649); `none` is `NotImplemented`, which
`object.__eq__` returns for two different objects.  A random field that is not compared with a
random field falls through to `Field.__eq__`, and from there to `object.__eq__`, as `a` is not
exactly a `Field`. -/
def FieldObj.eqMethod (a b : FieldObj) : Option Bool :=
  if (a.cls = .field ∧ b.cls = .field) ∨ (a.cls = .rf ∧ b.cls = .rf) then some (sameKeyset a.state b.state)
  else if a.ident = b.ident then some true else none

/-- `a == b` of Python: the method of `a`, else that of `b`, else identity.  (Python asks `b` first
if its class derives from that of `a`; the outcome is the same, as both answer `NotImplemented` for
different classes.) -/
def FieldObj.eq (a b : FieldObj) : Bool :=
  match a.eqMethod b with
  | some r => r
  | none => match b.eqMethod a with
    | some r => r
    | none => decide (a.ident = b.ident)

/-- `a != b` (field.py:656-658): `not a.__eq__(b)`.  `NotImplemented` counts as true (with a
DeprecationWarning since Python 3.9), so that its negation is False. -/
def FieldObj.ne (a b : FieldObj) : Bool :=
  match a.eqMethod b with
  | some r => !r
  | none => false

/-- The names given to `variables` or `RVs`. -/
inductive NamesArg where
  | text (s : Str)
  | list (ns : List Str)

/-- variable.py:788-792, rv.py:584-588: the names of the variables made, in order.  `ident` tells
the names `collections.namedtuple` accepts (variable.py:138, a ValueError otherwise).  The other
arguments are the same for all of them (C30) and not modelled here. -/
def makeNames (ident : Str → Bool) (arg : NamesArg) : Py (List Str) :=
  let ns := match arg with
    | .text s => s.splitOn ','
    | .list ns => ns
  ns.mapM fun n => if ident n then .ok n else .error .value

end Probayes
