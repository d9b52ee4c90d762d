/-
Model of /repo/probayes/cf.py 11-35, 76-133, 170-185 (the outputs, inputs and name of conditional
functions).
-/
import Verif.Base.Dict
import Mathlib.Data.List.SplitOn

namespace Probayes

/-- What a tuple or list may hold: random variables, by name, and fields, by the names of their
variables. -/
inductive CFItem where
  | rv (k : Str)
  | rf (ks : List Str)

/-- What may be passed to `set_out`: None, a random variable, a random field (with neither roots nor
stems, or with some), or a tuple or list.  Objects of other types are left out. -/
inductive CFOut where
  | none
  | rv (k : Str)
  | rf (ks : List Str) (bare : Bool)
  | seq (xs : List CFItem)

/-- cf.py:23-31: the entries of a tuple or list.  For a field, line 27 asks for `stems` of the tuple and
not of the field. -/
def CFItem.key : CFItem → Py Str
  | .rv k => .ok k
  | .rf _ => .error .attribute

/-- cf.py:11-35, for fields of distinct variables, at least one. -/
def toRf : CFOut → Py (Option (List Str))
  | .none => .ok none                                               -- 14-15
  | .rf ks bare => if bare then .ok (some ks) else .error .assertion -- 16-19
  | .rv k => .ok (some [k])                                         -- 20-21
  | .seq xs => do return some (← xs.mapM CFItem.key)                -- 22-32

/-- What may be passed to `set_inp`: None, a variable, a field, a tuple or list, or a dictionary of
texts, which may or may not be an OrderedDict. -/
inductive CFInp where
  | none
  | rv (k : Str)
  | rf (ks : List Str) (bare : Bool)
  | seq (xs : List CFItem)
  | dict (ordered : Bool) (d : Dict Str Str)

/-- The inputs that are stored. -/
inductive CFStored where
  | unset
  | field (ks : List Str)
  | texts (d : Dict Str Str)
deriving DecidableEq

/-- The outputs, inputs and name of a `CF`, whether the inputs are given by names, and the unknown
that is pending (cf.py:46-60). -/
structure CFState where
  out : Option (List Str)
  inp : CFStored
  name : Option Str
  inpdict : Bool
  unknown : Option Str
deriving DecidableEq

/-- cf.py:83-87. -/
def CFState.setOut (s : CFState) (o : CFOut) : CFState × Option Err :=
  match toRf o with
  | .ok ks => ({ s with out := ks }, none)
  | .error e => (s, some e)

/-- `','.join(names)`. -/
def commaJoin (ks : List Str) : Str := [','].intercalate ks

/-- cf.py:117-129: the conditions asserted of a dictionary. -/
def cfCheck (o : List Str) (d : Dict Str Str) : Bool :=
  (d.all fun kv => (kv.2.splitOn ',').all fun v =>
    (decide (d.length ≤ 1) || decide (v ∉ kv.1.splitOn ',')) && decide (v ∈ o)) &&
  (o.all fun k => decide (k ∈ d.keys.flatMap (List.splitOn ','))) &&
  (d.keys.flatMap (List.splitOn ',')).all fun k => decide (k ∈ o)

/-- cf.py:132-133. -/
def cfPrimed (o : List Str) : Str :=
  commaJoin (o.map fun k => k ++ ['\'']) ++ ['|'] ++ commaJoin o

/-- cf.py:110-133: None and dictionaries. -/
def CFState.setTexts (s : CFState) (d : Dict Str Str) : CFState × Option Err :=
  match s.out with
  | none => (s, some .attribute)                                    -- 111: `None.keylist`
  | some o =>
      if o.length ≤ 1 then (s, some .assertion)                     -- 112
      else if d.isEmpty then ({ s with name := some (cfPrimed o) }, none)
      else if cfCheck o d then ({ s with inp := .texts d, name := some (cfPrimed o) }, none)
      else (s, some .assertion)

/-- cf.py:103-106: variables and fields. -/
def CFState.setField (s : CFState) (i : CFOut) : CFState × Option Err :=
  match s.out with
  | none => (s, some .assertion)
  | some o =>
      match toRf i with
      | .ok (some ks) => ({ s with inp := .field ks, name := some (commaJoin o ++ ['|'] ++ commaJoin ks) }, none)
      | .ok none => (s, none)
      | .error e => (s, some e)

/-- cf.py:90-133.  Tuples and lists are made dictionaries at lines 98-99, which are not an
OrderedDict, so that line 108 refuses them. -/
def CFState.setInp (s : CFState) (i : CFInp) : CFState × Option Err :=
  match i with
  | .none => { s with inpdict := false, unknown := none }.setTexts []
  | .rv k => { s with inpdict := false, unknown := none }.setField (.rv k)
  | .rf ks b => { s with inpdict := false, unknown := none }.setField (.rf ks b)
  | .seq _ => ({ s with inpdict := true, unknown := none }, some .type)
  | .dict true d => { s with inpdict := true, unknown := none }.setTexts d
  | .dict false _ => ({ s with inpdict := true, unknown := none }, some .type)

end Probayes
