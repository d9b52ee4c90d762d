/-
Model of `serialise`, `deserialise`, `write_serialised`, `read_serialised`, `write_dist`
and `read_dist` in /repo/probayes/pd_utils.py:433-553, with `serialise` of
/repo/probayes/distribution.py:286-290 and /repo/probayes/pd.py:698-703 and `short_name`
(pd.py:66-72).

Only PDs with a probability are modelled (not bare Distributions), and no auxiliary
data.  The dictionary of dimensions is an object of its own: `serialise` hands out
the very dictionary of the distribution, so cells are explicit (the constructor
copies, distribution.py:124, so every distribution has its own cell).

The file is abstracted to what h5py documents: groups by name, data sets and
attributes by name; names are listed in alphabetical order; attributes keep integers,
strings and lists of strings.  Names with '/' (nested groups) are not modelled.
-/
import Mathlib.Data.Char
import Mathlib.Data.List.Lex
import Verif.Model.PDRemarg

namespace Probayes

/-- An entry of a dictionary of dimensions: `None`, an integer or the text `'None'`. -/
inductive DimVal where
  | none
  | axis (n : ℕ)
  | text
deriving DecidableEq

/-- The dimensions as stored in a distribution. -/
def dimVal : Option ℕ → DimVal
  | .none => .none
  | some n => .axis n

/-- The content of a dictionary of dimensions. -/
def dimCell (dims : Dict Str (Option ℕ)) : Dict Str DimVal := dims.map fun kv => (kv.1, dimVal kv.2)

/-- A text among the dimensions: `dim+1` raises TypeError (distribution.py:141-143). -/
def undimVal : DimVal → Py (Option ℕ)
  | .none => .ok .none
  | .axis n => .ok (some n)
  | .text => .error .type

/-- pd.py:66-72. -/
def PD.shortName (d : PD) : Str :=
  let m := [','].intercalate d.marg.keys
  let c := [','].intercalate d.cond.keys
  if c = [] then m else m ++ '|' :: c

/-- The serialised form of one distribution; `attrs` refers to a cell. -/
structure SerRef where
  vals : Dict Str Val
  attrs : ℕ
  prob : Arr
  pscale : PScale

/-- pd_utils.py:433-441: distribution number `i` has its dimensions in cell `i`. -/
def serialise (ds : List PD) : Dict Str SerRef :=
  Dict.ofUpdates (ds.mapIdx fun i d => (d.shortName, ⟨d.vals, i, d.prob, d.pscale⟩))

/-- The cells to begin with. -/
def initCells (ds : List PD) : List (Dict Str DimVal) := ds.map fun d => dimCell d.dims

/-- The serialised form of one distribution with the dimensions looked up. -/
structure SerRec where
  vals : Dict Str Val
  attrs : Dict Str DimVal
  prob : Arr
  pscale : PScale

/-- What a reader of the dictionary finds in it at the time. -/
def serView (cells : List (Dict Str DimVal)) (s : Dict Str SerRef) : Dict Str SerRec :=
  s.map fun kv => (kv.1, ⟨kv.2.vals, cells.getD kv.2.attrs [], kv.2.prob, kv.2.pscale⟩)

/-- pd_utils.py:449-459: one distribution. -/
noncomputable def deserialiseOne (fmt : Val → Str) (kv : Str × SerRec) : Py PD := do
  let dims ← kv.2.attrs.mapM fun kd => do return (kd.1, ← undimVal kd.2)
  pdInit fmt kv.1 kv.2.vals (some dims) kv.2.prob kv.2.pscale.spec

/-- pd_utils.py:444-460. -/
noncomputable def deserialise (fmt : Val → Str) (s : Dict Str SerRec) : Py (List PD) :=
  s.mapM (deserialiseOne fmt)

/-! ### files -/

/-- A data set: numbers, or strings with shape `(n, 0)`. -/
inductive H5 where
  | num (shape : List ℕ) (data : List ℚ)
  | strs (n : ℕ)

/-- An attribute. -/
inductive H5Attr where
  | axis (n : ℕ)
  | text
  | names (l : List Str)

/-- The group of one distribution. -/
structure H5Group where
  items : Dict Str H5
  attrs : Dict Str H5Attr
  prob : Arr
  pscale : PScale

/-- pd_utils.py:489-495: a value.  Sets have one element (distribution.py:131-135);
`np.zeros` refuses negative sizes (ValueError) and floats (TypeError). -/
def writeVal : Val → Py H5
  | .arr s data => .ok (.num s data)
  | .setint n => if 0 ≤ n then .ok (.strs n.toNat) else .error .value
  | .scalar x => .ok (.num [] [x])
  | _ => .error .type

/-- pd_utils.py:481-483: `attrs[k] = 'None'`, in place. -/
def markNone (c : Dict Str DimVal) : Dict Str DimVal :=
  c.map fun kv => (kv.1, match kv.2 with | .none => .text | v => v)

/-- pd_utils.py:485. -/
def attrOf : DimVal → H5Attr
  | .axis n => .axis n
  | _ => .text

/-- pd_utils.py:476-495: one distribution. -/
def writeOne (cells : List (Dict Str DimVal)) (kv : Str × SerRef) :
    Py (List (Dict Str DimVal) × H5Group) := do
  let items ← kv.2.vals.mapM fun kx => do return (kx.1, ← writeVal kx.2)
  let cell := markNone (cells.getD kv.2.attrs [])
  let attrs := cell.map fun kd => (kd.1, attrOf kd.2)
  let attrs := Dict.set attrs "order".toList (.names cell.keys)              -- 486-487
  return (cells.set kv.2.attrs cell, ⟨items, attrs, kv.2.prob, kv.2.pscale⟩)

/-- pd_utils.py:463-495: the cells afterwards and the file. -/
def writeSerialised (cells : List (Dict Str DimVal)) (s : Dict Str SerRef) :
    Py (List (Dict Str DimVal) × Dict Str H5Group) :=
  s.foldlM (fun st kv => do
    let (cells, g) ← writeOne st.1 kv
    return (cells, st.2 ++ [(kv.1, g)])) (cells, [])

/-- Names in alphabetical order. -/
def h5order (l : List Str) : List Str := l.mergeSort (fun a b => decide (a ≤ b))

/-- pd_utils.py:525-528: a data set read back. -/
def readVal : H5 → Val
  | .num s data => .arr s data
  | .strs n => .setint n

/-- `d[k]` (KeyError). -/
def getKey {V : Type} (d : Dict Str V) (k : Str) : Py V :=
  match Dict.get? d k with
  | some v => .ok v
  | none => .error .key

/-- pd_utils.py:529-532: an attribute read back. -/
def readAttr : H5Attr → Py DimVal
  | .axis n => .ok (.axis n)
  | .text => .ok .none
  | .names _ => .error .type

/-- pd_utils.py:512-541: one group.  Without dimensions the entry `attrs` stays an
array (TypeError in `deserialise`; not reached for constructed distributions). -/
def readOne (g : H5Group) : Py SerRec := do
  match Dict.get? g.attrs "order".toList with                                -- 516-521
  | some (.names order) => do
      let attrs := Dict.erase g.attrs "order".toList
      let dims ← order.mapM fun k => do return (k, ← readAttr (← getKey attrs k))
      let vals := (h5order g.items.keys).filterMap fun k => (Dict.get? g.items k).map fun x => (k, readVal x)
      let first ← order.mapM fun k => do return (k, ← getKey vals k)         -- 534-536
      let rest := vals.filter fun kv => kv.1 ∉ order                         -- 537-539
      if dims.isEmpty then .error .type
      else return ⟨Dict.ofUpdates (first ++ rest), Dict.ofUpdates dims, g.prob, g.pscale⟩
  | _ => .error .type

/-- pd_utils.py:503-545: names with a space are auxiliary data. -/
def readSerialised (file : Dict Str H5Group) : Py (Dict Str SerRec) := do
  let names := (h5order file.keys).filter fun n => ' ' ∉ n
  names.mapM fun n => do return (n, ← readOne (← getKey file n))

/-- pd_utils.py:548-549: the cells afterwards and the file. -/
def writeDist (ds : List PD) : Py (List (Dict Str DimVal) × Dict Str H5Group) :=
  writeSerialised (initCells ds) (serialise ds)

/-- pd_utils.py:552-553. -/
noncomputable def readDist (fmt : Val → Str) (file : Dict Str H5Group) : Py (List PD) := do
  deserialise fmt (← readSerialised file)

end Probayes
