/-
Model of /repo/probayes/dependence.py 276-300, 391-414 and /repo/probayes/sd.py 119-145: explicit
dependences.
-/
import Verif.Model.CondFn

namespace Probayes

/-- What may be raised: the exceptions of the model, UnboundLocalError or RuntimeError. -/
inductive DepErr where
  | py (e : Err)
  | unbound
  | runtime
deriving DecidableEq

/-- What is known of an explicit dependence: a `CF`, or what was given in a dictionary. -/
inductive DepVal where
  | cf (s : CFState)
  | given (edges : List (Str × Str))
deriving DecidableEq

/-- The parts of a dependence that matter: whether it has an architecture, its edges (in the
order of the view `self.edges`; new ones are put last), its explicit dependences, and whether a probability was set (dependence.py:31-46). -/
structure ExplState where
  arch : Bool
  edges : List (Str × Str)
  deps : Option (Dict Str DepVal)
  prob : Bool
deriving DecidableEq

/-- cf.py:72-74: a new `CF`; `fn` is the exception that its `set_func` raises, if any (see
Model/FuncRef.lean). -/
def newCF (o : CFOut) (i : CFInp) (fn : Option Err) : Py CFState :=
  let r := CFState.setOut ⟨none, .unset, none, false, none⟩ o
  match r.2 with
  | some e => .error e
  | none =>
      let r := r.1.setInp i
      match r.2 with
      | some e => .error e
      | none =>
          match fn with
          | some e => .error e
          | none => .ok r.1

/-- The ways in which `add_deps` is called: with a dictionary alone, each value of which is a collection
of edges; with anything else alone (None, variables, fields, tuples, which have no `items`); or with
inputs or a function. -/
inductive DepArgs where
  | dict (d : Dict Str (List (Str × Str)))
  | alone (o : CFOut)
  | full (o : CFOut) (i : CFInp) (fn : Option Err)

/-- dependence.py:282-284: what is done before anything is examined, if there are no edges to be
removed. -/
def ExplState.cleared (s : ExplState) : ExplState :=
  { s with
    arch := false
    deps := some (s.deps.getD []) }

/-- dependence.py:287-290, for one entry: an edge that there is already is not added twice. -/
def ExplState.giveEntry (s : ExplState) (kv : Str × List (Str × Str)) : ExplState :=
  { s with
    deps := some ((s.deps.getD []).set kv.1 (.given kv.2))
    edges := kv.2.foldl (fun es e => if e ∈ es then es else es ++ [e]) s.edges }

/-- dependence.py:285-300.  Line 292 is also reached with a dictionary, which `_to_rf` does not know
(cf.py:35 names a variable that is not bound).  Line 295 calls `ret_keys`, which fields do not have. -/
def ExplState.include (s : ExplState) (a : DepArgs) : ExplState × Option DepErr :=
  if s.prob then (s, some (.py .assertion))                         -- 285-286
  else match a with
    | .dict d => (d.foldl ExplState.giveEntry s, some .unbound)     -- 287-292
    | .alone _ => (s, some (.py .attribute))                        -- 288
    | .full o i fn =>
        match newCF o i fn with
        | .error e => (s, some (.py e))
        | .ok c => ({ s with deps := some ((s.deps.getD []).set (c.name.getD []) (.cf c)) }, some (.py .attribute))

/-- dependence.py:276-300.  Line 281 removes edges while going through the view of the edges, which
networkx takes from the dictionaries that are changed, so that RuntimeError is raised when the first edge is
gone. -/
def ExplState.addDeps (s : ExplState) (a : DepArgs) : ExplState × Option DepErr :=
  match s.arch, s.edges with
  | true, _ :: es => ({ s with edges := es }, some .runtime)        -- 280-281
  | _, _ => s.cleared.include a

/-- The parts of a tuple that a dependence may give. -/
inductive DepPart (V : Type) where
  | dict (d : Dict Str V)
  | array
  | other

/-- What the call of a dependence may give. -/
inductive DepOut (V : Type) where
  | dict (d : Dict Str V)
  | tuple (ps : List (DepPart V))
  | other

variable {V : Type}

def DepPart.isDict : DepPart V → Bool
  | .dict _ => true
  | _ => false

/-- dependence.py:398-413: what is checked of one output.  The first entry of a tuple is counted again at
lines 410-413, so that it is taken for the dimensions. -/
def depCheck : DepOut V → Option Err
  | .dict _ => none
  | .other => some .type
  | .tuple [] => some .index
  | .tuple (p :: ps) =>
      if p.isDict = false then some .assertion                      -- 405-407
      else if 3 ≤ (p :: ps).length then some .assertion             -- 408-409
      else if 2 ≤ ((p :: ps).filter DepPart.isDict).length then some .assertion
      else none

/-- dependence.py:395-413: the dependences are called one after another. -/
def depLoop (call : Str → Dict Str V → Py (DepOut V)) (vals : Dict Str V) : List Str → Py Unit
  | [] => .ok ()
  | k :: ks =>
      match call k vals with
      | .error e => .error e
      | .ok out =>
          match depCheck out with
          | some e => .error e
          | none => depLoop call vals ks

/-- dependence.py:391-414; `call` is the call of each dependence with the values parsed.  The outputs
are not used.  (sd.py:119-145 differs in that two arrays are refused too, which needs three entries.) -/
def evalDeps (call : Str → Dict Str V → Py (DepOut V)) (vals : Dict Str V) :
    Option (List Str) → Py (Option (Dict Str V))
  | none => .ok none
  | some ks =>
      match depLoop call vals ks with
      | .error e => .error e
      | .ok () => .ok (some vals)

end Probayes
