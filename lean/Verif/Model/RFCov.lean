/-
Model of covariances as transitions of a random field: `RF.set_tran` and `RF.set_tfun` with
arrays (/repo/probayes/rf.py:170-298), `RF.eval_delta` (rf.py:340-354) on top of
`Field.eval_delta` (/repo/probayes/field.py:468-531), and the steps that result
(field.py:535-597).  The variables are of float type and all random.
-/
import Verif.Model.Field
import Verif.Model.Walk
import Mathlib.LinearAlgebra.Matrix.Defs

namespace Probayes

/-- A NumPy array of two dimensions.  Arrays of other dimensions are refused alike
(rf.py:216, 293) and are not modelled. -/
structure Arr2 where
  rows : ℕ
  cols : ℕ
  at' : Matrix (Fin rows) (Fin cols) ℝ

/-- `np.linalg.cholesky` on square matrices; `none` is LinAlgError. -/
abbrev Chol := ∀ n : ℕ, Matrix (Fin n) (Fin n) ℝ → Option (Matrix (Fin n) (Fin n) ℝ)

/-- What a random field keeps of its transitions: `_tran` (the array it was made of), `_tfun`
and `_tsteps`.  `ready` is whether it has random variables and no proposal
(rf.py:186-189). -/
structure RFTrans where
  ready : Bool
  tran : Option Arr2
  tfun : Option Arr2
  tsteps : Option ℤ

/-- A random field as it is made (rf.py:54-60). -/
def RFTrans.fresh : RFTrans := ⟨true, none, none, none⟩

/-- Is it square of size `n`? rf.py:216-217. -/
def Arr2.isSquare (n : ℕ) (M : Arr2) : Bool := decide (M.rows = n ∧ M.cols = n)

/-- The matrix of a square array (elsewhere 0, not used). -/
noncomputable def Arr2.square (M : Arr2) (n : ℕ) : Matrix (Fin n) (Fin n) ℝ := fun i j =>
  if h : (i : ℕ) < M.rows ∧ (j : ℕ) < M.cols then M.at' ⟨i, h.1⟩ ⟨j, h.2⟩ else 0

/-- `np.allclose(M, np.tril(M)) or np.allclose(M, np.triu(M))` (rf.py:295-296): the entries
that are to be zero are at most 1e-8 in size. -/
noncomputable def Arr2.triangular (M : Arr2) : Bool :=
  open Classical in
  decide ((∀ (i : Fin M.rows) (j : Fin M.cols), (i : ℕ) < j → |M.at' i j| ≤ 1/10^8) ∨
    ∀ (i : Fin M.rows) (j : Fin M.cols), (j : ℕ) < i → |M.at' i j| ≤ 1/10^8)

/-- rf.py:246-298 for `None` and arrays, without keywords.  `_tfun` is assigned before it
is checked. -/
noncomputable def RFTrans.setTfun (n : ℕ) (F : RFTrans) : Option Arr2 → RFTrans × Py Unit
  | none => ({ F with tfun := none }, .ok ())
  | some M =>
      ({ F with tfun := some M },
        if M.isSquare n && M.triangular then .ok () else .error .assertion)

/-- rf.py:170-222 for `None` and arrays, with the keyword `tsteps` or without.  `_tran` is
assigned before it is checked, `_tfun` is left alone by `None`, and `tsteps` is refused
after the decomposition has been set. -/
noncomputable def RFTrans.setTran (chol : Chol) (n : ℕ) (F : RFTrans) (tran : Option Arr2) (tsteps : Option ℤ) :
    RFTrans × Py Unit :=
  let F := { F with tran := tran, tsteps := none }
  match tran with
  | none => (F, .ok ())
  | some M =>
      if !F.ready then (F, .error .assertion)
      else
        let F := { F with tsteps := tsteps }
        if !M.isSquare n then (F, .error .assertion)
        else
          match chol n (M.square n) with
          | none => (F, .error .value)
          | some L =>
              match F.setTfun n (some ⟨n, n, L⟩) with
              | (F, .error e) => (F, .error e)
              | (F, .ok _) => (F, if tsteps.isNone then .ok () else .error .assertion)

/-- What `Field.eval_delta` returns: the `Delta` of every variable, or, if spherised, a number
for every variable. -/
inductive Moves (n : ℕ) where
  | deltas (δ : Fin n → ℝ)
  | nums (δ : Fin n → ℝ)
  | arrays (δ : Fin n → ℝ)

/-- rf.py:340-349: with a matrix as `tfun` the deltas are multiplied by it.  An array made of
`Delta` objects has a second axis of one, so that the rows of the product are arrays of
one element (`Moves.arrays`).  ValueError if the columns do not match, TypeError if the
rows do not. -/
noncomputable def RFTrans.evalMoves {n : ℕ} (F : RFTrans) (m : Moves n) : Py (Moves n) :=
  match F.tfun with
  | none => .ok m
  | some M =>
      if M.cols ≠ n then .error .value
      else if M.rows ≠ n then .error .type
      else
        let mul (δ : Fin n → ℝ) : Fin n → ℝ := fun i => ∑ j, M.square n i j * δ j
        match m with
        | .deltas δ => .ok (.arrays (mul δ))
        | .nums δ => .ok (.nums (mul δ))
        | .arrays δ => .ok (.arrays (mul δ))

/-- The delta of a field: the deltas of its variables (a scalar, a list or a `Delta`,
field.py:267-306), or a tuple (lines 309-318) with `scale`. -/
inductive FieldDelta where
  | own
  | sphere (d : ℝ) (scale : Bool)

/-- The delta of a float variable (variable.py:600-638). -/
noncomputable def coordDelta (c : FCoord) (u : ℝ) : Option ℝ := evalDelta c.o c.len none u

/-- field.py:476-531.  Variables without a delta (line 482, not a number) and components
that are not finite count as refused (ValueError) here. -/
noncomputable def fieldMoves {n : ℕ} (names : Fin n → Str) (cs : Fin n → FCoord) (D : FieldDelta) (u : Fin n → ℝ) :
    Py (Moves n) :=
  match D with
  | .own =>
      if ∀ i, (coordDelta (cs i) (u i)).isSome then .ok (.deltas fun i => (coordDelta (cs i) (u i)).getD 0)
      else .error .value
  | .sphere d scale => do
      let r ← sphericalDelta true (List.ofFn fun i => ⟨names i, (cs i).len, true⟩) [] scale d
        fun i => if h : i < n then u ⟨i, h⟩ else 0
      match r.mapM Prod.snd with
      | none => .error .value
      | some xs => return .nums fun i => xs.getD i 0

/-- Applying numbers (field.py:546-552, variable.py:641-740).  A zero is taken for no delta
(variable.py:663), so that the variable's own delta applies, with a draw of its own (here
`u`). -/
noncomputable def applyNums {n : ℕ} (cs : Fin n → FCoord) (bound : Bool) (v δ u : Fin n → ℝ) : Fin n → ℝ := fun i =>
  (cs i).x.applyScalar (cs i).uf (cs i).o (cs i).len (v i) (some (.scalar (δ i))) (some bound) (u i)

/-- The step of a random field by its delta (rf.py:340-354, 605-644; field.py:535-597).
Adding an array of one element gives such an array: bounding it fails as the value it is
added to is a number, and otherwise it is refused as a value without an axis
(distribution.py:175-190, see `C84_arrays_refused`).  An array of zero counts as no delta
(variable.py:663). -/
noncomputable def RFTrans.step {n : ℕ} (F : RFTrans) (names : Fin n → Str) (cs : Fin n → FCoord) (D : FieldDelta)
    (bound : Bool) (v : Fin n → ℝ) (ω : FDraw n) : Py (Fin n → ℝ) := do
  match ← F.evalMoves (← fieldMoves names cs D ω.u) with
  | .deltas _ => fieldStep cs bound v ω
  | .nums δ => return applyNums cs bound v δ ω.u
  | .arrays δ =>
      if ∀ i, δ i = 0 then return applyNums cs bound v δ ω.u
      else .error .assertion

end Probayes
