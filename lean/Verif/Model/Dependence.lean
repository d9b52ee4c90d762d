/-
Model of /repo/probayes/dependence.py: construction of dependence graphs and their
leafs, stems and roots.
-/
import Verif.Model.Field

namespace Probayes

/-- A dependence object: its directed graph (`networkx.DiGraph`: nodes in insertion
order, edges from condition to conditioned) and the summaries set by `_refresh`
(dependence.py:31-42, 192-263).  Fields are given by their variables.  Functionals,
explicit dependences (`add_deps`), deltas, names and identities are not
modelled. -/
structure DepObj where
  nodes : List ℕ
  edges : List (ℕ × ℕ)
  leafs : List ℕ
  stems : Dict Str ℕ
  roots : Option (List ℕ)
  preds : Option (List ℕ)

/-- `self.predecessors(var)` is not empty. -/
def hasParents (edges : List (ℕ × ℕ)) (v : ℕ) : Bool := edges.any fun e => e.2 = v

/-- `self.successors(var)` is not empty. -/
def hasChildren (edges : List (ℕ × ℕ)) (v : ℕ) : Bool := edges.any fun e => e.1 = v

/-- `self._field_cls(*vars)` followed by reading its `varlist`. -/
def fieldOf (info : ℕ → VarInfo) (st : Bool) (vs : List ℕ) : Py (List ℕ) :=
  match mkField info st vs with
  | (s, none) => .ok s.vars.vals
  | (_, some e) => .error e

/-- dependence.py:234-242: the predecessors of the leafs.  The iteration order of
the set is taken as first occurrence. -/
def depPreds (info : ℕ → VarInfo) (st : Bool) (edges : List (ℕ × ℕ)) (leafs : List ℕ)
    (stems : Dict Str ℕ) (roots : Option (List ℕ)) : Py (Option (List ℕ)) :=
  if stems.isEmpty then .ok roots
  else
    match fieldOf info st
        ((leafs.flatMap fun l => (edges.filter fun e => e.2 = l).map Prod.fst).foldl addNode []) with
    | .ok p => .ok (some p)
    | .error e => .error e

/-- dependence.py:192-263 with `leafs` (and possibly `roots`) given. -/
def depRefreshGiven (info : ℕ → VarInfo) (st : Bool) (nodes : List ℕ) (edges : List (ℕ × ℕ))
    (leafs : List ℕ) (roots : Option (List ℕ)) : Py DepObj :=
  match depPreds info st edges leafs [] roots with
  | .ok p => .ok ⟨nodes, edges, leafs, [], roots, p⟩
  | .error e => .error e

/-- dependence.py:217-229: variables without children. -/
def leafNodes (nodes : List ℕ) (edges : List (ℕ × ℕ)) : List ℕ :=
  nodes.filter fun v => !hasChildren edges v

/-- dependence.py:226-227. -/
def rootNodes (nodes : List ℕ) (edges : List (ℕ × ℕ)) : List ℕ :=
  nodes.filter fun v => hasChildren edges v && !hasParents edges v

/-- dependence.py:224-225. -/
def stemNodes (info : ℕ → VarInfo) (nodes : List ℕ) (edges : List (ℕ × ℕ)) : Dict Str ℕ :=
  Dict.ofUpdates ((nodes.filter fun v => hasChildren edges v && hasParents edges v).map
    fun v => ((info v).name, v))

/-- dependence.py:230-232: roots are left as None if there are none. -/
def rootField (info : ℕ → VarInfo) (st : Bool) (vs : List ℕ) : Py (Option (List ℕ)) :=
  if vs.isEmpty then .ok none
  else match fieldOf info st vs with
    | .ok r => .ok (some r)
    | .error e => .error e

/-- dependence.py:192-263 without arguments. -/
def depRefresh (info : ℕ → VarInfo) (st : Bool) (nodes : List ℕ) (edges : List (ℕ × ℕ)) :
    Py DepObj :=
  match fieldOf info st (leafNodes nodes edges) with
  | .error e => .error e
  | .ok leafs =>
    match rootField info st (rootNodes nodes edges) with
    | .error e => .error e
    | .ok roots =>
      match depPreds info st edges leafs (stemNodes info nodes edges) roots with
      | .error e => .error e
      | .ok p => .ok ⟨nodes, edges, leafs, stemNodes info nodes edges, roots, p⟩

/-- dependence.py:64-109 for arguments that are variables or fields, each given by
its variables.  With three or more, line 109 unpacks a single variable, which asks
for its item 0 (variable.py:766-770, expression.py:472-474): AssertionError, or
KeyError for a random variable with several functions as probability (not
distinguished).  By then line 98 has extended the first argument's own list of
variables; that side effect is not modelled. -/
def depOfFields (info : ℕ → VarInfo) (st : Bool) : List (List ℕ) → Py DepObj
  | [] => .error .attribute         -- no summaries are set; any use fails
  | [f] => depRefreshGiven info st (f.foldl addNode []) [] f none
  | [l, r] => depRefreshGiven info st (r.foldl addNode (l.foldl addNode []))
      (r.flatMap fun u => l.map fun v => (u, v)) l (some r)
  | _ => .error .assertion

/-- dependence.py:143-147: each set of roots is the next set of leafs. -/
def isSerial : List (List ℕ × List ℕ) → Bool
  | (_, r) :: (l, r') :: rest =>
      r.all (· ∈ l) && l.all (· ∈ r) && isSerial ((l, r') :: rest)
  | _ => true

/-- dependence.py:160-170: whether all leafs agree (as lists), and the
concatenated roots. -/
def parallelLoop : List (List ℕ × List ℕ) → List ℕ → List ℕ → Bool × List ℕ
  | [], _, roots => (true, roots)
  | (l, r) :: rest, leafs, roots =>
      if leafs.isEmpty then parallelLoop rest l (roots ++ r)
      else if r.isEmpty ∨ leafs ≠ l then (false, roots ++ r)
      else parallelLoop rest leafs (roots ++ r)

/-- dependence.py:139-141: `list(arg.leafs.varlist), list(arg.roots.varlist)`;
AttributeError when an argument has no roots. -/
def runLeafsRoots (d : DepObj) : Py (List ℕ × List ℕ) :=
  match d.roots with
  | none => .error .attribute
  | some r => .ok (d.leafs, r)

/-- dependence.py:114-122. -/
def depNodes (ds : List DepObj) : List ℕ :=
  (ds.flatMap DepObj.nodes).foldl addNode ((ds.flatMap DepObj.leafs).foldl addNode [])

/-- dependence.py:124-126. -/
def depEdges (ds : List DepObj) : List (ℕ × ℕ) := ds.reverse.flatMap DepObj.edges

/-- dependence.py:111-178 for arguments that are dependences without explicit
dependences. -/
def depOfDeps (info : ℕ → VarInfo) (st : Bool) (ds : List DepObj) : Py DepObj :=
  match ds.mapM runLeafsRoots with
  | .error e => .error e
  | .ok lr =>
    if 1 < ds.length && isSerial lr then
      match lr.head?, lr.getLast? with
      | some (l, _), some (_, r) =>
          depRefreshGiven info st (depNodes ds) (depEdges ds) l (some r)
      | _, _ => .error .assertion
    else
      if 1 < ds.length && (parallelLoop lr [] []).1 then
        match lr.head?, fieldOf info st (parallelLoop lr [] []).2 with
        | some (l, _), .ok r => depRefreshGiven info st (depNodes ds) (depEdges ds) l (some r)
        | _, .error e => .error e
        | none, _ => .error .assertion
      else depRefresh info st (depNodes ds) (depEdges ds)

end Probayes
