/-
Model of probabilities set to distribution objects of a library (scipy.stats):
/repo/probayes/prob.py 84-87, 125-189, 192-232, 265-320, 331-380, 388-417 and
/repo/probayes/expression.py 143-243, 352-356, 451-482.
-/
import Verif.Model.Expression
import Verif.Model.ProbObj

namespace Probayes

/-- A function of the library: what it gives when called. -/
abbrev Meth (V : Type) := Call V → Py V

/-- A distribution object: its attributes (`hasattr`, `getattr`). -/
structure DistObj (V : Type) where
  meths : Dict Str (Meth V)

/-- prob.py:26-28. -/
def distMethods : List Str :=
  ["pdf", "logpdf", "pmf", "logpmf", "cdf", "logcdf", "ppf", "rvs", "sf", "logsf", "isf", "moment", "stats",
    "expect", "entropy", "fit", "median", "mean", "var", "std", "interval"].map String.toList

/-- A function with the arguments and keywords it was given beforehand
(`functools.partial(Expression._partial_call, self, f, *args, **kwds)`). -/
structure Fixed (V : Type) where
  f : Meth V
  own : Call V

/-- Calling it: the mappings are those of the expression at the time of the call
(expression.py:376-452). -/
def Fixed.call {V : Type} (sub : V → V → V) (maps : ExprMaps) (p : Fixed V) (c : Call V) : Py V := do
  p.f (← exprPartial sub maps false p.own c)

/-- What a probability was set to. -/
inductive PKind (V : Type) where
  | obj (v : V)                -- uncallable; `None` is one
  | scalar (v : V)
  | fn (f : Fixed V)
  | univ
  | mvar

/-- A probability object: its scale, what it was set to, the attributes `_prob` has of
those named in `distMethods`, the mappings, the partial functions by name (for
distributions), the keys of `_exprs` with their initial value None, and the cumulative
functions and the sampling function, which are expressions without mappings. -/
structure PState (V : Type) where
  scale : Option PScale
  kind : PKind V
  attrs : List Str
  maps : ExprMaps
  partials : Dict Str (Fixed V)
  exprs : Option (List Str)
  pfun : Option (Fixed V × Fixed V)
  sfun : Option (Fixed V)

/-- Class attributes (prob.py:72-81) and prob.py:86; `nil` is None. -/
def PState.new {V : Type} (nil : V) : PState V := ⟨none, .obj nil, [], ⟨none, none⟩, [], none, none, none⟩

/-- prob.py:212-217: the functions `d` has of those that are attributes of `_prob`
(`attrs`), with the arguments and keywords. -/
def fixMethods {V : Type} (attrs : List Str) (d : DistObj V) (own : Call V) : Py (Dict Str (Fixed V)) :=
  (distMethods.filter fun m => decide (m ∈ attrs)).mapM fun m =>
    match d.meths.get? m with
    | some f => .ok (m, ⟨f, own⟩)
    | none => .error .attribute

/-- prob.py:219-225: the common names `prob` and `logp`. -/
def commonNames {V : Type} (p : Dict Str (Fixed V)) : Py (Dict Str (Fixed V)) :=
  match p.get? "pdf".toList, p.get? "pmf".toList with
  | some f, _ => match p.get? "logpdf".toList with
    | some g => .ok (p ++ [("prob".toList, f), ("logp".toList, g)])
    | none => .error .key
  | none, some f => match p.get? "logpmf".toList with
    | some g => .ok (p ++ [("prob".toList, f), ("logp".toList, g)])
    | none => .error .key
  | none, none => .ok p

/-- prob.py:200-225. -/
def distPartials {V : Type} (attrs : List Str) (d : DistObj V) (own : Call V) : Py (Dict Str (Fixed V)) := do
  commonNames (← fixMethods attrs d own)

/-- Whether `_logp` (prob.py:256). -/
def PScale.isLog : PScale → Bool
  | .lin _ => false
  | .log _ _ => true

/-- expression.py:239-242 and prob.py:163-166: the keywords `order` and `delta`. -/
def setMaps (s : ExprMaps) (order delta : Option (Dict Str Route)) : Py ExprMaps := do
  let s1 ← match order with
    | none => .ok s
    | some m => match setOrder s (some m) with
      | (s', none) => .ok s'
      | (_, some e) => .error e
  match delta with
  | none => .ok s1
  | some m => match setDelta s1 (some m) with
    | (s', none) => .ok s'
    | (_, some e) => .error e

/-- prob.py:170-177: what scipy distributions set besides; `_prob` becomes a partial
function (without the attributes of a distribution), KeyError without density. -/
def finishDist {V : Type} (s : PState V) (d : DistObj V) (own : Call V) : Py (PState V) :=
  let key := if (s.scale.map PScale.isLog).getD false then "logp".toList else "prob".toList
  match s.partials.get? key with
  | none => .error .key
  | some _ =>
    let s := { s with attrs := [] }
    let s := match s.partials.get? "cdf".toList, s.partials.get? "ppf".toList with
      | some _, some _ => match d.meths.get? "cdf".toList, d.meths.get? "ppf".toList with
        | some F, some G => { s with pfun := some (⟨F, own⟩, ⟨G, own⟩) }
        | _, _ => s
      | _, _ => s
    match s.partials.get? "rvs".toList, d.meths.get? "rvs".toList with
    | some _, some R => .ok { s with sfun := some ⟨R, own⟩ }
    | _, _ => .ok s

/-- What is given to `set_prob` besides the scale.  Symbolic distributions, pairs and
dictionaries of functions, the keyword `invertible` and arguments together with
something uncallable are not modelled; a function is not a lambda without arguments. -/
inductive PGiven (V : Type) where
  | obj (attrs : List Str) (v : V)
  | scalar (v : V)
  | fn (attrs : List Str) (f : Meth V) (own : Call V) (order delta : Option (Dict Str Route))
  | univ (d : DistObj V) (own : Call V) (order delta : Option (Dict Str Route))
  | mvar (gen : DistObj V) (make : Call V → Py (DistObj V)) (own : Call V) (order delta : Option (Dict Str Route))

/-- prob.py:125-189: `set_prob`; what is left after an exception is not modelled. -/
noncomputable def PState.setProb {V : Type} (s : PState V) (g : PGiven V) (ps : PSpec) : Py (PState V) := do
  let a ← setScale s.scale ps
  let s := { s with scale := some a }
  match g with
  | .obj attrs v =>
      return { s with kind := .obj v, attrs := attrs, maps := ⟨none, none⟩, partials := [], exprs := some [] }
  | .scalar v =>
      return { s with kind := .scalar v, attrs := [], maps := ⟨none, none⟩, partials := [], exprs := some [] }
  | .fn attrs f own order delta => do
      let m ← setMaps ⟨none, none⟩ order delta
      return { s with
        kind := .fn ⟨f, own⟩, attrs := attrs, maps := m, partials := [], exprs := some [] }
  | .univ d own order delta => do
      let m ← setMaps ⟨none, none⟩ order delta                  -- expression.py:239-242
      let _ ← distPartials s.attrs d own                         -- line 243, with the old `_prob`
      let p ← distPartials d.meths.keys d own                    -- prob.py:167
      finishDist { s with kind := .univ, maps := m, partials := p, exprs := some [] } d own
  | .mvar gen make own order delta => do
      let m ← setMaps s.maps order delta                         -- prob.py:163-166; not reset before
      let d ← make own                                           -- 207-209
      let p ← distPartials gen.meths.keys d ⟨[], []⟩
      finishDist { s with kind := .mvar, maps := m, partials := p } d ⟨[], []⟩

/-- prob.py:331-380 without the keyword `pscale` (C70): `stack` turns the dictionary
given to a multivariate distribution into an array (C69).  Of univariate distributions
keywords are ignored (line 360).  A scalar is a symbolic constant, modelled here
without arguments (C67). -/
def PState.eval {V : Type} (sub : V → V → V) (stack : PArg V → Py V) (s : PState V) (c : Call V) : Py V :=
  let key := if (s.scale.map PScale.isLog).getD false then "logp".toList else "prob".toList
  match s.kind with
  | .obj v => if c.args.isEmpty && c.kwds.isEmpty then .ok v else .error .assertion
  | .scalar v => if c.args.isEmpty && c.kwds.isEmpty then .ok v else .error .notImplemented
  | .fn f => f.call sub s.maps c
  | .univ => match s.partials.get? key with
    | some p => p.call sub s.maps ⟨c.args, []⟩
    | none => .error .key
  | .mvar => match s.partials.get? key, c.args with
    | some p, a :: _ => do p.call sub s.maps ⟨[.val (← stack a)], []⟩
    | some _, [] => .error .index
    | none, _ => .error .key

/-- prob.py:388-417, expression.py:468-482 with a string that is not empty: the
function of that name, called. -/
def PState.item {V : Type} (sub : V → V → V) (s : PState V) (name : Str) (c : Call V) : Py V :=
  match s.kind with
  | .univ | .mvar => match s.partials.get? name with
    | some p => p.call sub s.maps c
    | none => .error .key
  | _ => .error .assertion

/-- prob.py:415-416: indexing by the empty string. -/
def PState.names {V : Type} (s : PState V) : Py (List Str) :=
  match s.exprs with
  | some l => .ok l
  | none => .error .attribute

/-- `pfun[0]` and `pfun[1]` called: TypeError if there are none. -/
def PState.cumul {V : Type} (sub : V → V → V) (s : PState V) (inverse : Bool) (c : Call V) : Py V :=
  match s.pfun with
  | some (F, G) => (if inverse then G else F).call sub ⟨none, none⟩ c
  | none => .error .type

/-- `sfun` called: TypeError if there is none. -/
def PState.draw {V : Type} (sub : V → V → V) (s : PState V) (c : Call V) : Py V :=
  match s.sfun with
  | some R => R.call sub ⟨none, none⟩ c
  | none => .error .type

/-- An initialisation followed by calls of `set_prob`. -/
noncomputable def PState.run {V : Type} (s : PState V) : List (PGiven V × PSpec) → Py (PState V)
  | [] => .ok s
  | (g, ps) :: l => do (← s.setProb g ps).run l

end Probayes
