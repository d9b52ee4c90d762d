/-
Model of /repo/probayes/variable.py: variable sets, membership, evaluation and
delta operations.  Floats are exact reals, infinite limits (`sympy.oo`) are the
ends of `EReal`; integers are `ℤ`; random draws are parameters.
-/
import Mathlib.Data.EReal.Basic
import Verif.Model.Vtypes

namespace Probayes

/-! ### Floating point variables -/

/-- One entry of a float variable set: a number, or a 1-tuple marking the limit
as exclusive. -/
structure Limit where
  v : EReal
  excl : Bool

/-- Ways to declare the set of a float variable: a pair (variable.py:179-183)
or a two-element list of limits. -/
inductive FSet where
  | tuple (a b : EReal)
  | list (a b : Limit)

/-- variable.py:179-183 (a tuple becomes two exclusive sorted limits) and
187-205 for float vtypes (conversion of entries to float is the identity
here). -/
noncomputable def FSet.toList : FSet → Limit × Limit
  | .tuple a b => (⟨min a b, true⟩, ⟨max a b, true⟩)
  | .list a b => (a, b)

/-- A float variable after the `vset` setter: `_vset` reordered and `_vlims`. -/
structure FloatVar where
  s0 : Limit
  s1 : Limit
  lo : EReal
  hi : EReal

/-- variable.py:265-276: limits are extracted, `_vset` is reversed when they are
out of order, `_vlims` are the sorted limits. -/
noncomputable def FloatVar.make (s : FSet) : FloatVar :=
  let (a, b) := s.toList
  if b.v < a.v then ⟨b, a, b.v, a.v⟩ else ⟨a, b, a.v, b.v⟩

/-- variable.py:351-366: the four membership functions. -/
noncomputable def FloatVar.inside (x : FloatVar) (v : ℝ) : Bool :=
  match x.s0.excl, x.s1.excl with
  | false, false => decide (x.lo ≤ v) && decide (v ≤ x.hi)
  | false, true => decide (x.lo ≤ v) && decide (v < x.hi)
  | true, false => decide (x.lo < v) && decide (v ≤ x.hi)
  | true, true => decide (x.lo < v) && decide (v < x.hi)

/-- A transform with its inverse (variable.py:466-497, a two-tuple of
callables); `none` when no `ufun` is set. -/
abbrev UFun := Option ((ℝ → ℝ) × (ℝ → ℝ))
/-- The transform (identity if none). -/
def UFun.fwd : UFun → ℝ → ℝ
  | none => id
  | some (f, _) => f
/-- The inverse transform (identity if none). -/
def UFun.inv : UFun → ℝ → ℝ
  | none => id
  | some (_, g) => g

/-- variable.py:568-586 for a float variable and `values={n}`: finite limits are
transformed (335-336), a uniform grid or random values are taken there, and
transformed back.  Infinite limits raise AssertionError (570-572).
Simplification: finiteness of the *transformed* limits is taken to be finiteness
of the limits. -/
noncomputable def FloatVar.evaluate (x : FloatVar) (uf : UFun) (n : ℤ) (rand : ℕ → ℝ) : Py SA :=
  if x.lo = ⊥ ∨ x.lo = ⊤ ∨ x.hi = ⊤ ∨ x.hi = ⊥ then .error .assertion
  else
    match uniform (uf.fwd x.lo.toReal) (uf.fwd x.hi.toReal) n x.s0.excl x.s1.excl rand with
    | .scalar v => .ok (.scalar (uf.inv v))
    | .array vs => .ok (.array (vs.map uf.inv))

/-- `np.minimum(limit, v)` with a possibly infinite limit. -/
noncomputable def npMin (l : EReal) (v : ℝ) : ℝ := if (v : EReal) ≤ l then v else l.toReal
/-- `np.maximum(limit, v)` with a possibly infinite limit. -/
noncomputable def npMax (l : EReal) (v : ℝ) : ℝ := if l ≤ (v : EReal) then v else l.toReal

/-- variable.py:695-699: add the delta, through the transform if there is one. -/
noncomputable def shift (uf : UFun) (v d : ℝ) : ℝ :=
  match uf with
  | none => v + d
  | some (f, g) => g (f v + d)

/-- variable.py:713-728: bounding of a scalar.  `v` is the original value, `w`
the shifted one. -/
noncomputable def FloatVar.boundScalar (x : FloatVar) (v w : ℝ) : ℝ :=
  match x.s0.excl, x.s1.excl with
  | false, false => npMax x.lo (npMin x.hi w)
  | true, true => if x.inside w then w else v
  | true, false => if (w : EReal) < x.lo then v else npMin x.hi w
  | false, true => if x.hi < (w : EReal) then v else npMax x.lo w

/-- variable.py:713-714 and 729-740: bounding of an array, entry by entry. -/
noncomputable def FloatVar.boundEntry (x : FloatVar) (v w : ℝ) : ℝ :=
  match x.s0.excl, x.s1.excl with
  | false, false => npMax x.lo (npMin x.hi w)
  | true, true => if !x.inside w then v else w
  | true, false => npMin x.hi (if (w : EReal) ≤ x.lo then v else w)
  | false, true => npMax x.lo (if x.hi ≤ (w : EReal) then v else w)

/-- Delta specifications (variable.py:385-391): plain scalar, `Delta` instance,
`(d,)` (random polarity) and `[d]` (uniform in ±d). -/
inductive DeltaSpec where
  | scalar (d : ℝ)
  | named (d : ℝ)
  | orand (d : ℝ)
  | urand (d : ℝ)

/-- Python truth value: only the plain scalar 0 is false. -/
noncomputable def DeltaSpec.truthy : DeltaSpec → Bool
  | .scalar d => decide (d ≠ 0)
  | _ => true

/-- `delta or self._delta` (variable.py:609, 663). -/
noncomputable def orDefault (delta default : Option DeltaSpec) : Option DeltaSpec :=
  match delta with
  | some d => if d.truthy then some d else default
  | none => default

/-- Options set by `set_delta` (variable.py:376-409). -/
structure DeltaOpts where
  delta : Option DeltaSpec
  scale : Bool
  bound : Bool

/-- `delta == self._delta` at variable.py:634 where the left side is a number. -/
noncomputable def isDefaultScalar (default : Option DeltaSpec) (d : ℝ) : Bool :=
  match default with
  | some (.scalar c) => decide (c = d)
  | _ => false

/-- variable.py:600-638 for float variables (callable deltas are not modelled).
`u` is the uniform draw, `len` the variable length (assumed finite). -/
noncomputable def evalDelta (o : DeltaOpts) (len : ℝ) (delta : Option DeltaSpec) (u : ℝ) :
    Option ℝ :=
  match orDefault delta o.delta with
  | none => none
  | some s =>
      let d := match s with
        | .scalar d => d
        | .named d => d
        | .orand d => if u > 1/2 then d else -d
        | .urand d => -d + 2 * d * u
      some (if isDefaultScalar o.delta d && o.scale then d * len else d)

/-- variable.py:663-672 for float variables: the number finally added; `none`
returns the values unchanged.  Only list/tuple deltas go through `eval_delta`. -/
noncomputable def effectiveDelta (o : DeltaOpts) (len : ℝ) (delta : Option DeltaSpec) (u : ℝ) :
    Option ℝ :=
  match orDefault delta o.delta with
  | none => none
  | some (.scalar d) => some d
  | some (.named d) => some d
  | some s => evalDelta o len (some s) u

/-- variable.py:641-740 for a float variable and scalar input. -/
noncomputable def FloatVar.applyScalar (x : FloatVar) (uf : UFun) (o : DeltaOpts) (len : ℝ)
    (v : ℝ) (delta : Option DeltaSpec) (bound : Option Bool) (u : ℝ) : ℝ :=
  match effectiveDelta o len delta u with
  | none => v
  | some d =>
      let w := shift uf v d
      if bound.getD o.bound then x.boundScalar v w else w

/-- variable.py:641-740 for a float variable and array input. -/
noncomputable def FloatVar.applyArray (x : FloatVar) (uf : UFun) (o : DeltaOpts) (len : ℝ)
    (vs : List ℝ) (delta : Option DeltaSpec) (bound : Option Bool) (u : ℝ) : List ℝ :=
  match effectiveDelta o len delta u with
  | none => vs
  | some d =>
      vs.map fun v =>
        let w := shift uf v d
        if bound.getD o.bound then x.boundEntry v w else w

/-! ### Discrete variables -/

/-- variable.py:172-186: sets, ranges and arrays are sorted (`sorted`,
`np.sort`), lists are kept. `distinct` says whether the container removes
duplicates (sets, ranges). -/
inductive DSet (α : Type) where
  | set (xs : List α)      -- any enumeration of a Python set or range
  | array (xs : List α)
  | list (xs : List α)

def DSet.toList {α : Type} [LinearOrder α] : DSet α → List α
  | .set xs => xs.dedup.mergeSort (· ≤ ·)
  | .array xs => xs.mergeSort (· ≤ ·)
  | .list xs => xs

/-- variable.py:327: `np.isin(x, vset)`. -/
def insideD {α : Type} [DecidableEq α] (vset : List α) (x : α) : Bool := decide (x ∈ vset)

/-- variable.py:329: the length of a discrete variable is 2 for booleans and the
number of entries otherwise. -/
def lengthD {α : Type} (isBool : Bool) (vset : List α) : ℕ := if isBool then 2 else vset.length

/-- Result of evaluating a discrete variable. -/
inductive DOut (α : Type) where
  | scalar (x : α)
  | array (xs : List α)

/-- `values[indices]`: IndexError when an index is out of range. -/
def takeIdx {α : Type} (xs : List α) : List ℕ → Py (List α)
  | [] => .ok []
  | i :: is => do
      let x ← (match xs[i]? with | some x => .ok x | none => .error .index)
      let r ← takeIdx xs is
      return x :: r

/-- variable.py:543-563 for non-float vtypes.  `req` is `none` for `None` and
`some n` for `{n}`; `r` the draw of `np.random.randint(0, len)`, `perm` the draw
of `np.random.permutation(|n|)`. -/
def evaluateD {α : Type} (isBool : Bool) (vset : List α) (req : Option ℤ) (r : ℕ)
    (perm : List ℕ) : Py (DOut α) :=
  match req with
  | none => .ok (.array vset)
  | some n =>
      if n = 0 then
        match vset[r]? with
        | some x => .ok (.scalar x)
        | none => .error .index
      else do
        let idx := if 0 < n then (List.range n.natAbs) else perm
        let vs ← takeIdx vset (idx.map (· % lengthD isBool vset))
        return .array vs

/-- variable.py:692-693: booleans with a plain (integer-like) delta. -/
def boolShift (v : Bool) (d : ℤ) : Bool := ((if v then 1 else 0) + d) % 2 == 1

/-- variable.py:683-687: a scalar boolean with a list or tuple delta
(`values if delta > u > 0.5 else not values`). -/
noncomputable def boolRandScalar (v : Bool) (p u : ℝ) : Bool :=
  if p > u ∧ u > 1/2 then v else !v

/-- variable.py:688-691: one entry of a boolean array with a list delta. -/
noncomputable def boolRandEntry (v : Bool) (p u : ℝ) : Bool := if p > u then !v else v

/-- variable.py:709-714 for integers: `vals` clipped to the extreme members.
`delta` is an integer; deltas of any size are in `Model/IntDelta.lean`. -/
def intApply (lo hi : ℤ) (v d : ℤ) (bound : Bool) : ℤ :=
  if bound then max lo (min hi (v + d)) else v + d

/-- variable.py:260-261: `_vlims` of a discrete variable. -/
def vlimsD (vset : List ℤ) : Option (ℤ × ℤ) :=
  match vset with
  | [] => none
  | x :: xs => some (xs.foldl min x, xs.foldl max x)

end Probayes
