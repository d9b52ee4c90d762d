/-
Model of naming and calling the functions of a functional:
/repo/probayes/functional_utils.py 9-45, /repo/probayes/functional.py 28-36, 54-58,
76-80, 123-130, 180-198 and /repo/probayes/expression.py 352-356, 451-466.
-/
import Verif.Model.Functional
import Verif.Model.Expression
import Verif.Model.Expr
import Mathlib.Data.Finset.Dedup

namespace Probayes

/-- A thing that may name a vertex (functional_utils.py:37-44): a string, an object
with a string as name, an object with another name, or one without name. -/
inductive Ident where
  | str (s : Str)
  | named (s : Str)
  | misnamed
  | bare

/-- functional_utils.py:38-44: the name of one element. -/
def Ident.name : Ident → Py Str
  | .str s => .ok s
  | .named s => .ok s
  | .misnamed => .error .assertion
  | .bare => .error .assertion

/-- Identifiers (functional_utils.py:28-36): one thing, or a list, tuple or set of
things. -/
inductive Idents where
  | one (i : Ident)
  | many (is : List Ident)

/-- functional_utils.py:28-45.  A single string is split at commas. -/
def parseIdentifiers : Idents → Py (Finset Str)
  | .one (.str s) => .ok (s.splitOn ',').toFinset                           -- 32-33
  | .one i => do return {← i.name}                                         -- 34-35
  | .many is => do return (← is.mapM Ident.name).toFinset                  -- 36-45

/-- functional_utils.py:19-24 for the nodes of a graph (which are distinct objects,
not necessarily of distinct names): the names of the vertices, in order.  `isId` is
`str.isidentifier`.  No graph, or one without nodes, has none (14-15). -/
def collateVertices (isId : Str → Bool) (nodes : List Ident) : Py (List Str) :=
  nodes.foldlM (fun acc v => match v with
    | .named s => if isId s then .ok (if s ∈ acc then acc else acc ++ [s]) else .error .assertion
    | .str _ => .error .assertion
    | .misnamed => .error .assertion
    | .bare => .error .assertion) []

/-- functional.py:32-33, 54-58, 76-80: a functional of two graphs; without a second
one (or with an empty one) the first serves for both. -/
def FnState.new (isId : Str → Bool) (out inp : List Ident) : Py FnState := do
  let o ← collateVertices isId out
  let i ← collateVertices isId (if inp.isEmpty then out else inp)
  return FnState.init o.toFinset i.toFinset

/-- functional.py:110-130: the specification given to `add_func`: a dictionary from
outputs to inputs, or outputs alone. -/
inductive FnNames where
  | dict (kvs : List (Ident × Ident))
  | outs (is : Idents)

/-- functional.py:126-130. -/
def FnNames.parse : FnNames → Py (Finset Str × Option (Finset Str))
  | .dict kvs => do
      let o ← parseIdentifiers (.many (kvs.map Prod.fst))
      let i ← parseIdentifiers (.many (kvs.map Prod.snd))
      return (o, some i)
  | .outs is => do return (← parseIdentifiers is, none)

/-- `add_func` with names as given: nothing is changed if they cannot be parsed (the
dictionaries may be initialised, functional.py:118-121, which is not observable). -/
noncomputable def addNamed (s : FnState) (names : FnNames) (expr : Py FuncObj) (hasArgs : Bool) :
    FnState × Option Err :=
  match names.parse with
  | .error e => (s, some e)
  | .ok (o, i) => addFunc s ⟨o, i, expr, hasArgs⟩

/-- functional.py:195-198: the function indexed.  As long as no function has been
added there is nothing to index (`None[...]` raises TypeError). -/
def fnIndex (s : FnState) (ids : Idents) : Py FuncObj := do
  let k ← parseIdentifiers ids
  if s.partials.isEmpty then .error .type else fnGet s k

/-- `{**a, **b}`. -/
def kwdsOver {V : Type} (a b : Dict Str V) : Dict Str V :=
  b.foldl (fun acc kv => acc.set kv.1 kv.2) a

/-- The order mapping a functional gives to a function without one of its own
(functional.py:186-192); `enum` is the order in which a set of names is iterated. -/
def fnOrder (enum : Finset Str → List Str) (f : FuncObj) : Dict Str Route :=
  (enum f.ignored).map fun k => (k, Route.drop)

/-- Calling the function indexed in a functional of non-symbolic functions without
orders or deltas of their own: the number of the function called and the arguments
it is called with.  `dflt` are the arguments and keywords the functional was made
with (functional.py:35-36, 184), `own` those the function was added with
(expression.py:352-356); `lambda0` tells whether it is a lambda without arguments.
Symbolic functions are called by `fnEval`. -/
def fnCall {V : Type} (sub : V → V → V) (enum : Finset Str → List Str) (own : ℕ → Call V)
    (lambda0 : ℕ → Bool) (dflt : Call V) (s : FnState) (ids : Idents) (c : Call V) :
    Py (ℕ × Call V) := do
  let f ← fnIndex s ids
  if f.isiconic then .error .notImplemented
  else do
    let r ← exprPartial sub ⟨some (fnOrder enum f), none⟩ (lambda0 f.id) (own f.id)
      ⟨dflt.args ++ c.args, kwdsOver dflt.kwds c.kwds⟩
    return (f.id, r)

/-- Calling the function indexed in a functional of symbolic functions
(expression.py:311-314: the order is not consulted).  `expr` gives the expression of
each function.  Non-symbolic functions are called by `fnCall`. -/
def fnEval (argsort : List ℝ → List ℕ) (expr : ℕ → ExprObj) (dargs : List EArg)
    (dkwds : Dict Str EVal) (s : FnState) (ids : Idents) (args : List EArg) (kwds : Dict Str EVal) :
    Py EVal := do
  let f ← fnIndex s ids
  if f.isiconic then callExpr argsort (expr f.id) (dargs ++ args) (kwdsOver dkwds kwds)
  else .error .notImplemented

end Probayes
