/-
Model of /repo/probayes/functional.py: registration of functions.
-/
import Verif.Base.Py
import Verif.Base.Dict
import Mathlib.Data.Finset.Card

namespace Probayes

/-- An `Expression` instance: the function it wraps (`id`), whether it is iconic,
its symbols, whether a delta mapping is set, whether its order mapping is non-empty,
and the keywords its order mapping discards. -/
structure FuncObj where
  id : ℕ
  isiconic : Bool
  symbols : Finset Str
  hasDelta : Bool
  ordered : Bool
  ignored : Finset Str
deriving DecidableEq

/-- A `Functional` (functional.py:15-28).  The variables' `dexpr` attribute
(lines 153-155) is modelled as the function last assigned to each output. -/
structure FnState where
  outSet : Finset Str
  inpSet : Finset Str
  deps : Dict (Finset Str) (Option (Finset Str))
  ndeps : ℕ
  funcs : Dict (Finset Str) FuncObj
  isiconic : Option Bool
  dexpr : Dict Str ℕ
  partials : List (Finset Str)
deriving DecidableEq

/-- functional.py:31-39. -/
def FnState.init (outs inps : Finset Str) : FnState :=
  ⟨outs, inps, [], 0, [], none, [], []⟩

/-- functional.py:180-192: loop over the functions.  A function without order
gets one that discards the inputs it does not depend on; membership in a dependence
that is None raises TypeError (unless there are no inputs to look at); `set_order`
assigns before asserting that no delta is set (expression.py:249-254).  Returns the
functions, the partials set, and the exception raised, if any. -/
def setPartials (inpSet : Finset Str) (deps : Dict (Finset Str) (Option (Finset Str))) :
    Dict (Finset Str) FuncObj → Dict (Finset Str) FuncObj × List (Finset Str) × Option Err
  | [] => ([], [], none)
  | (k, f) :: fs =>
      if f.ordered then
        let r := setPartials inpSet deps fs
        ((k, f) :: r.1, k :: r.2.1, r.2.2)
      else
        match deps.get? k with
        | none => ((k, f) :: fs, [k], some .key)
        | some none =>
            if inpSet.Nonempty then ((k, f) :: fs, [k], some .type)
            else if f.hasDelta then ((k, { f with ignored := ∅ }) :: fs, [k], some .assertion)
            else
              let r := setPartials inpSet deps fs
              ((k, { f with ignored := ∅ }) :: r.1, k :: r.2.1, r.2.2)
        | some (some d) =>
            let f' := { f with ordered := decide (inpSet \ d).Nonempty, ignored := inpSet \ d }
            if f.hasDelta then ((k, f') :: fs, [k], some .assertion)
            else
              let r := setPartials inpSet deps fs
              ((k, f') :: r.1, k :: r.2.1, r.2.2)

/-- What `add_func` is given: the parsed output names, the input names if the
specification is a dictionary, the expression (or the exception its construction
raises), and whether optional arguments are passed. -/
structure FnSpec where
  out : Finset Str
  inp : Option (Finset Str)
  expr : Py FuncObj
  hasArgs : Bool

/-- functional.py:166-173: final checks and the partials. -/
def addFuncEnd (s : FnState) (out inp : Finset Str) : FnState × Option Err :=
  if ¬ out ⊆ s.outSet then (s, some .assertion)
  else if ¬ inp ⊆ s.inpSet then (s, some .assertion)
  else
    let r := setPartials s.inpSet s.deps s.funcs
    ({ s with funcs := r.1, partials := r.2.1 }, r.2.2)

/-- functional.py:158-164: inputs of iconic functions. -/
def addFuncInp (s : FnState) (out : Finset Str) (inp : Option (Finset Str)) (f : FuncObj) :
    FnState × Option Err :=
  match inp with
  | some i => addFuncEnd s out i
  | none =>
      if s.isiconic ≠ some true then (s, some .assertion)
      else addFuncEnd { s with deps := s.deps.set out (some f.symbols) } out f.symbols

/-- functional.py:144-156: iconic functions have one output, a known one. -/
noncomputable def addFuncIconic (s : FnState) (a : FnSpec) (f : FuncObj) : FnState × Option Err :=
  if s.isiconic = some true then
    if a.hasArgs then (s, some .assertion)
    else if a.out.card ≠ 1 then (s, some .assertion)
    else match a.out.toList with
      | [k] =>
          if k ∉ s.outSet then (s, some .assertion)
          else addFuncInp { s with dexpr := s.dexpr.set k f.id } a.out a.inp f
      | _ => (s, some .assertion)
  else addFuncInp s a.out a.inp f

/-- functional.py:110-173.  The result is the state after the call and the
exception raised, if any. -/
noncomputable def addFunc (s : FnState) (a : FnSpec) : FnState × Option Err :=
  if a.out ∈ s.deps.keys then (s, some .assertion)
  else
    let deps := s.deps.set a.out a.inp
    let s := { s with deps := deps, ndeps := deps.length }
    match a.expr with
    | .error e => (s, some e)
    | .ok f =>
        let s := { s with funcs := s.funcs.set a.out f }
        match s.isiconic with
        | none => addFuncIconic { s with isiconic := some f.isiconic } a f
        | some b =>
            if b ≠ f.isiconic then (s, some .assertion)
            else addFuncIconic s a f

/-- functional.py:195-198: the function called for an output specification;
KeyError if there is none. -/
def fnGet (s : FnState) (out : Finset Str) : Py FuncObj :=
  if out ∈ s.partials then
    match s.funcs.get? out with
    | some f => .ok f
    | none => .error .key
  else .error .key

end Probayes
