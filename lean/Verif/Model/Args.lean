/-
Model of `parse_as_str_dict` (/repo/probayes/variable_utils.py:7-53) and
`sort_ordered_dict` (/repo/probayes/expr.py:32-63).
-/
import Mathlib.Data.Real.Basic
import Verif.Base.Dict

namespace Probayes

/-- A part of a key (variable_utils.py:36-44): text, an object with a name (text
or not), or any other object. -/
inductive SubKey where
  | text (s : Str)
  | named (name : Option Str)
  | other

/-- A key of a dictionary given as argument (variable_utils.py:26-34): text, a
tuple, or another object. -/
inductive ArgKey where
  | text (s : Str)
  | tuple (parts : List SubKey)
  | obj (part : SubKey)

/-- An argument (variable_utils.py:20): a dictionary or something else. -/
inductive ArgDict (V : Type) where
  | dict (items : List (ArgKey × V))
  | other

/-- variable_utils.py:36-44. -/
def SubKey.name : SubKey → Py Str
  | .text s => .ok s
  | .named (some s) => .ok s
  | .named none => .error .assertion
  | .other => .error .key

/-- variable_utils.py:33-45: the text of a key that is not text. -/
def ArgKey.text? : ArgKey → Py Str
  | .text s => .ok s
  | .tuple parts => do return [','].intercalate (← parts.mapM SubKey.name)
  | .obj part => do return [','].intercalate (← [part].mapM SubKey.name)

/-- `key in remap`, `remap[key]` (variable_utils.py:28-31, 46-49). -/
def remapped (remap : Dict Str Str) (s : Str) : Str := (Dict.get? remap s).getD s

/-- `isinstance(key, str)`. -/
def ArgKey.isText : ArgKey → Bool
  | .text _ => true
  | _ => false

/-- variable_utils.py:26-49, one item. -/
def strItem {V : Type} (remap : Dict Str Str) (acc : Dict Str V) (kv : ArgKey × V) : Py (Dict Str V) :=
  match kv.1 with
  | .text s => .ok (Dict.set acc (remapped remap s) kv.2)
  | k => do return Dict.set acc (remapped remap (← k.text?)) kv.2

/-- The text of a key known to be text. -/
def ArgKey.raw : ArgKey → Str
  | .text s => s
  | _ => []

/-- variable_utils.py:20-49, one argument. -/
def strArg {V : Type} (remap : Dict Str Str) (acc : Dict Str V) : ArgDict V → Py (Dict Str V)
  | .other => .error .assertion
  | .dict items =>
      if remap.isEmpty && items.all (fun kv => kv.1.isText) then
        .ok ((items.map fun kv => (kv.1.raw, kv.2)).foldl (fun d kv => Dict.set d kv.1 kv.2) acc)
      else items.foldlM (strItem remap) acc

/-- variable_utils.py:7-53.  `remap` is the reserved keyword; `None` and an empty
dictionary are the same (`not remap`). -/
def parseAsStrDict {V : Type} (args : List (ArgDict V)) (kwds : Dict Str V) (remap : Dict Str Str) :
    Py (Dict Str V) :=
  if args.isEmpty then .ok kwds
  else do
    let d ← args.foldlM (strArg remap) []
    return kwds.foldl (fun d kv => Dict.set d kv.1 kv.2) d

/-- The `order` of `sort_ordered_dict`: a tuple or list, or a dictionary. -/
inductive Order where
  | list (l : List (Option ℝ))
  | dict (d : Dict Str (Option ℝ))

/-- expr.py:36-43: the order as a dictionary. -/
def Order.asDict (keys : List Str) : Order → Py (Dict Str (Option ℝ))
  | .list l => if keys.length = l.length then .ok (keys.zip l) else .error .assertion
  | .dict d =>
      if keys.all (fun k => decide (k ∈ d.keys)) && d.keys.all (fun k => decide (k ∈ keys)) then .ok d
      else .error .assertion

/-- `np.min(np.diff(sort_order)) > 0` (expr.py:51). -/
def rising : List ℕ → Bool
  | a :: b :: l => decide (a < b) && rising (b :: l)
  | _ => true

/-- expr.py:54-62: the keys in the new order: those without order stay, the
others are taken from the sorted keys. -/
def placeKeys (isNone : Str → Bool) : List Str → List Str → List Str
  | [], _ => []
  | k :: ks, sorted =>
      if isNone k then k :: placeKeys isNone ks sorted
      else match sorted with
        | [] => placeKeys isNone ks []
        | s :: sorted => s :: placeKeys isNone ks sorted

/-- expr.py:32-63.  `argsort` is `np.argsort` (any permutation that sorts). -/
def sortOrderedDict {V : Type} (argsort : List ℝ → List ℕ) (d : Dict Str V) (order : Order) (reverse : Bool) :
    Py (Dict Str V) := do
  let ord ← order.asDict d.keys
  let isNone : Str → Bool := fun k => ((Dict.get? ord k).join).isNone
  let notNone := d.keys.filter fun k => !isNone k
  if notNone.length < 2 then return d
  else
    let vals := notNone.filterMap fun k => (Dict.get? ord k).join
    let ix := if reverse then (argsort vals).reverse else argsort vals
    if rising ix then return d
    else
      let sorted := ix.filterMap fun i => notNone[i]?
      let keys := placeKeys isNone d.keys sorted
      return Dict.ofUpdates (keys.filterMap fun k => (Dict.get? d k).map fun v => (k, v))

end Probayes
