/-
Model of symbolic distributions: /repo/probayes/expr.py 17-29, 280-306 and
/repo/probayes/sympy_prob.py 21-47, 50-68, 132-179.
-/
import Verif.Base.Py
import Verif.Base.Dict
import Mathlib.Analysis.SpecialFunctions.Log.Basic
import Mathlib.Data.List.Dedup

namespace Probayes

/-- A symbol: symbols are equal if their names and their assumptions are.  Assumptions
are numbered; 1 stands for `real=True`. -/
structure Sy where
  name : Str
  asm : ℕ
deriving DecidableEq

/-- A symbolic expression: its free symbols in the order in which they are iterated, its
value for values of the symbols, and whether it is the number zero (which is false as
a truth value).  Random symbols, which have a symbol as attribute (expr.py:24-26), are
not modelled. -/
structure SExpr where
  syms : List Sy
  val : (Sy → ℝ) → ℝ
  zero : Bool

/-- Replacing a symbol by another. -/
def Sy.swap (a b s : Sy) : Sy := if s = a then b else s

/-- `expr.subs({a: b})` for symbols. -/
def SExpr.sub1 (e : SExpr) (ab : Sy × Sy) : SExpr :=
  ⟨(e.syms.map (Sy.swap ab.1 ab.2)).dedup, fun ρ => e.val fun s => ρ (Sy.swap ab.1 ab.2 s), e.zero⟩

/-- `expr.subs(dict)`: one after the other, in an order sympy chooses (`ord`). -/
def SExpr.subs (ord : List (Sy × Sy) → List (Sy × Sy)) (l : List (Sy × Sy)) (e : SExpr) : SExpr :=
  (ord l).foldl SExpr.sub1 e

/-- expr.py:17-29: the symbols by name; of several of one name the last is kept, at the
place of the first. -/
def collateSymbols (e : SExpr) : Dict Str Sy := e.syms.foldl (fun d s => d.set s.name s) []

/-- expr.py:285: the name of the real equivalent. -/
def realName (k : Str) : Str := ['_', '_'] ++ k ++ ['_', '_']

/-- expr.py:280-288 for the symbols of the object and its expression `own`; zero or no
expression stands for the own one (`expr or self._expr`). -/
def subre (ord : List (Sy × Sy) → List (Sy × Sy)) (own : SExpr) (expr : Option SExpr) : SExpr :=
  let e := match expr with
    | some e => if e.zero then own else e
    | none => own
  e.subs ord ((collateSymbols own).map fun kv => (kv.2, ⟨realName kv.1, 1⟩))

/-- expr.py:295-299: the original of a name, if it has the form of a real equivalent.
Python's slices: `key[:2]`, `key[-2:]` and `key[2:-2]`. -/
def origName (key : Str) : Option Str :=
  if key.take 2 = ['_', '_'] ∧ key.drop (key.length - 2) = ['_', '_'] then
    some ((key.take (key.length - 2)).drop 2)
  else none

/-- expr.py:291-300. -/
def resub (ord : List (Sy × Sy) → List (Sy × Sy)) (own e : SExpr) : SExpr :=
  e.subs ord ((collateSymbols e).filterMap fun kv =>
    (origName kv.1).bind fun k => (Dict.get? (collateSymbols own) k).map fun s => (kv.2, s))

/-- expr.py:303-306: `simplify`, which only replaces symbols forth and back. -/
def exprSimplify (ord : List (Sy × Sy) → List (Sy × Sy)) (own : SExpr) (expr : Option SExpr) : SExpr :=
  resub ord own (subre ord own expr)

/-- `sympy.log(expr)`. -/
noncomputable def logExpr (e : SExpr) : SExpr := ⟨e.syms, fun ρ => Real.log (e.val ρ), false⟩

/-- sympy_prob.py:150-154: the expression of the logarithm for that of the density, where
`simp` is sympy's `simplify`. -/
noncomputable def logpExpr (ord : List (Sy × Sy) → List (Sy × Sy)) (simp : SExpr → SExpr) (pdf : SExpr) : SExpr :=
  resub ord pdf (simp (logExpr (subre ord pdf (some pdf))))

/-- An object as seen by `sympy_obj_from_dist`: its identity, whether it has `_cdf`, and
its `args`, if it has any such attribute. -/
inductive STree where
  | leaf (id : ℕ) (cdf : Bool)
  | node (id : ℕ) (cdf : Bool) (args : List STree)

mutual
/-- sympy_prob.py:32-47, the recursive calls (`_recursive=True`): None if nothing is
found.  Objects found count as true. -/
def objFind : STree → Option ℕ
  | .leaf id cdf => if cdf then some id else none
  | .node id cdf args => if cdf then some id else objFirst args
/-- The first found among the arguments (39-43). -/
def objFirst : List STree → Option ℕ
  | [] => none
  | t :: ts => match objFind t with
    | some id => some id
    | none => objFirst ts
end

/-- sympy_prob.py:21-47. -/
def objFromDist (t : STree) : Py ℕ :=
  match objFind t with
  | some id => .ok id
  | none => .error .value

/-- What sampling returns: one value, or an array or list of values. -/
inductive Samples (V : Type) where
  | one (v : V)
  | many (vs : List V)

/-- sympy_prob.py:50-68: `draw k` is the k-th value sampled, `conv` the conversion to
`dtype` if given; `size` None or zero asks for one value. -/
def sympySfun {V : Type} (draw : ℕ → V) (conv : V → V) (size : Option ℤ) : Samples V :=
  match size with
  | none => .one (conv (draw 0))
  | some n => if n = 0 then .one (conv (draw 0)) else .many ((List.range n.toNat).map fun k => conv (draw k))

/-- sympy_prob.py:170-175 and expression.py:323-330: among the solutions, with the
lengths of their representations, the one kept; none without solutions. -/
def pickInverse {α : Type} : List (ℕ × α) → Option (ℕ × α)
  | [] => none
  | s :: l => some (l.foldl (fun best t => if t.1 < best.1 then t else best) s)

/-- A Sympy distribution as `SympyProb` uses it: the object and its parts, its first
argument if that is a symbol, the density of the object found if it has one
(`pdf`), its cumulative function unless asking for it raises (`_cdf`), the solutions of
`cdf - u` for the symbol with the lengths of their representations (none if sympy
raises TypeError), and whether it is a random symbol at all. -/
structure SDist where
  id : ℕ
  isDist : Bool
  tree : STree
  cterm : Option Sy
  pdf : Option SExpr
  cdf : Option SExpr
  inverses : List (ℕ × SExpr)

/-- What the expression dictionary holds. -/
inductive SEntry where
  | expr (e : SExpr)
  | sampler

/-- The attributes `_distr`, `_probj` and `_exprs` (sympy_prob.py:106-108). -/
structure SState where
  distr : Option ℕ
  probj : Option ℕ
  exprs : Option (Dict Str SEntry)

/-- sympy_prob.py:146-179: the dictionary of expressions, in order. -/
noncomputable def sympyExprs (ord : List (Sy × Sy) → List (Sy × Sy)) (simp : SExpr → SExpr) (d : SDist) : Dict Str SEntry :=
  (match d.pdf with
    | some e => [("prob".toList, .expr e), ("logp".toList, .expr (logpExpr ord simp e))]
    | none => []) ++
  (match d.cdf with
    | some c => ("cdf".toList, SEntry.expr c) :: (match pickInverse d.inverses with
        | some i => [("icdf".toList, .expr i.2)]
        | none => [])
    | none => []) ++
  [("sfun".toList, .sampler)]

/-- sympy_prob.py:128-179, the setter of `distr`: what is left behind and what is raised. -/
noncomputable def SState.setDistr (ord : List (Sy × Sy) → List (Sy × Sy)) (simp : SExpr → SExpr) :
    Option SDist → SState × Option Err
  | none => (⟨none, none, none⟩, none)
  | some d =>
    if d.isDist then
      match objFromDist d.tree with
      | .error e => (⟨some d.id, none, none⟩, some e)
      | .ok o =>
        match d.cterm with
        | none => (⟨some d.id, some o, some []⟩, some .type)
        | some _ => (⟨some d.id, some o, some (sympyExprs ord simp d)⟩, none)
    else (⟨some d.id, none, none⟩, some .assertion)

/-- Arguments of `SympyProb.__getitem__`; containers with whether they are empty. -/
inductive SAsk where
  | tuple
  | whole
  | list (empty : Bool)
  | dict (empty : Bool)
  | key (k : Str)

/-- What it returns. -/
inductive SItem where
  | exprs (d : Option (Dict Str SEntry))
  | names (l : List Str)
  | obj (o : Option ℕ)
  | entry (e : SEntry)

/-- sympy_prob.py:182-204.  The message of the assertion (198) is itself an
AttributeError, strings having no `type`. -/
def SState.item (s : SState) : SAsk → Py SItem
  | .tuple => .error .notImplemented
  | .whole => .ok (.exprs s.exprs)
  | .list e => if e then .ok (.obj s.distr) else .error .attribute
  | .dict e => if e then .ok (.obj s.probj) else .error .attribute
  | .key k =>
    match s.exprs with
    | none => .error (if k = [] then .attribute else .type)
    | some d =>
      if k = [] then .ok (.names d.keys)
      else match Dict.get? d k with
        | some e => .ok (.entry e)
        | none => .error .key

end Probayes
