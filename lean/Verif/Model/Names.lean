/-
Model of the name handling of /repo/probayes/pd_utils.py: `str2key` (13-19),
`str_margcond` (22-50), `margcond_str` (53-59), `rekey_dict` (62-82); and of
/repo/probayes/sd_utils.py: `desuffix` (7-19), `get_suffixed` (22-30).
-/
import Verif.Base.Dict

namespace Probayes

/-- Python `s.find(c)`: position of the first occurrence (`none` for -1). -/
def findChar (s : Str) (c : Char) : Option ℕ := s.findIdx? (· == c)

/-- pd_utils.py:13-19 on a single string. -/
def str2key (s : Str) : Str :=
  match findChar s '=' with
  | none => s
  | some k => if 0 < k then s.take k else s

/-- `name[lt:1:rt]` (pd_utils.py:34): the slice from `lt` up to index 1 in steps
of `rt > 0` has at most the one character at index 0. -/
def parenSlice (s : Str) (lt : ℕ) : Str := if lt = 0 then s.take 1 else []

/-- pd_utils.py:41-48: the entries of one side of a name. -/
def splitNames (s : Str) : Dict Str Str :=
  if s = [] then []
  else Dict.ofUpdates ((s.splitOn ',').map fun t => (str2key t, t))

/-- pd_utils.py:22-50. -/
def strMargcond (name : Str) : Py (Dict Str Str × Dict Str Str) :=
  if name = [] then .ok ([], [])                                     -- 27-28
  else do
    let marg ← (match findChar name '(', findChar name ')' with      -- 29-34
      | none, none => (.ok name : Py Str)
      | some lt, some rt => if lt < rt then .ok (parenSlice name lt) else .error .assertion
      | _, _ => .error .assertion)
    if '|' ∈ marg then                                               -- 36-39
      match name.splitOn '|' with
      | [m, c] => return (splitNames m, splitNames c)
      | _ => .error .assertion
    else return (splitNames marg, [])

/-- pd_utils.py:53-59 on dictionaries. -/
def margcondStr (marg cond : Dict Str Str) : Str :=
  let m := [','].intercalate marg.vals
  let c := [','].intercalate cond.vals
  if c = [] then m else m ++ '|' :: c

/-- pd_utils.py:71-81: the new value string for a renamed key. -/
def rekeyStr (mapKey val : Str) : Str :=
  match findChar val '=' with
  | none => mapKey
  | some k => if 0 < k then mapKey ++ val.drop k else mapKey

/-- pd_utils.py:67-81: one iteration of the renaming loop. -/
def rekeyDictStep (keymap acc : Dict Str Str) (kv : Str × Str) : Py (Dict Str Str) :=
  match Dict.get? keymap kv.1 with
  | none => .ok (Dict.set acc kv.1 kv.2)
  | some mk =>
      if mk ∈ acc.keys then .error .assertion
      else .ok (Dict.set acc mk (rekeyStr mk kv.2))

/-- pd_utils.py:62-82. -/
def rekeyDict (d : Dict Str Str) (keymap : Dict Str Str) : Py (Dict Str Str) :=
  d.foldlM (rekeyDictStep keymap) []

/-! ### sd_utils.py -/

/-- `key[-1]`. -/
def lastChar (k : Str) : Py Char :=
  match k.getLast? with
  | some c => .ok c
  | none => .error .index

/-- sd_utils.py:7-19 with the default suffix.  Without any suffixed key, line 13
(`vals.update({values})`) raises TypeError (a dictionary is not hashable). -/
def desuffix {V : Type _} (values : Dict Str V) : Py (Dict Str V) := do
  let lasts ← values.mapM (fun kv => lastChar kv.1)
  if '\'' ∈ lasts then
    values.foldlM (fun (acc : Dict Str V) (kv : Str × V) =>
      let key := if kv.1.getLast? = some '\'' then kv.1.dropLast else kv.1
      if key ∈ acc.keys then (.error .assertion : Py _)
      else .ok (Dict.set acc key kv.2)) []
  else .error .type

/-- sd_utils.py:22-30 with `unsuffix=True` and the default suffix. -/
def getSuffixed {V : Type _} (values : Dict Str V) : Py (Dict Str V) :=
  values.foldlM (fun (acc : Dict Str V) (kv : Str × V) => do
    let c ← lastChar kv.1
    if c = '\'' then return Dict.set acc kv.1.dropLast kv.2 else return acc) []

end Probayes
