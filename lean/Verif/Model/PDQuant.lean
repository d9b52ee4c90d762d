/-
Model of `quantile` in /repo/probayes/pd.py:408-461, and of `np.interp` as it
uses it (for `np.digitize` see `npDigitize`).

`qs` is the list of requested probabilities; a scalar `q` is `[q]`, of whose
result the only element is returned (lines 410, 459-460).
-/
import Verif.Model.PDMarg
import Verif.Model.RV

namespace Probayes

/-- `np.interp(x, [x0, x1], [y0, y1])`. -/
noncomputable def interp2 (x x0 x1 y0 y1 : ℝ) : ℝ :=
  if x ≤ x0 then y0 else if x1 ≤ x then y1 else (y1 - y0) / (x1 - x0) * (x - x0) + y0

/-- An entry of the result of `quantile`. -/
inductive Quant where
  | given (v : Val)
  | value (x : ℝ)

/-- pd.py:443-458: a sorted array variable on axis `dim`; `u` is its position at
the row-major position `k`.  Slices of fewer than two entries (not reached for
constructed PDs) and entries out of range are shown as IndexError. -/
noncomputable def quantVal (ndim : ℕ) (ravprob cumprob : List ℝ) (q : ℝ) (k dim u : ℕ)
    (val : List ℚ) : Py Quant :=
  let ix := min u (val.length - 1)
  if dim + 1 < ndim ∨ ix + 1 = val.length then
    match val[ix]? with
    | some v => .ok (.value v)
    | none => .error .index
  else match val[ix]?, val[ix + 1]?, ravprob[k]?, ravprob[k + 1]?, cumprob[k]?, cumprob[k + 1]? with
    | some v0, some v1, some p0, some p1, some c0, some c1 =>
        if |p1 - p0| < min q (1 - q) then .ok (.value (interp2 q c0 c1 v0 v1))
        else .ok (.value ((p0 * v0 + p1 * v1) / (p0 + p1)))
    | _, _, _, _, _, _ => .error .index

/-- pd.py:436-458: one iteration. -/
noncomputable def quantStep (d : PD) (ravprob cumprob : List ℝ) (q : ℝ) (k : ℕ)
    (kv : Str × Val) : Py (Str × Quant) :=
  if kv.2.issingleton then .ok (kv.1, .given kv.2)
  else match kv.2 with
    | .arr _ val =>
        if !ismonotonic val then .ok (kv.1, .given (.setint val.length))       -- 418-423, 439-440
        else do
          match ← dimOf d.dims kv.1 with
          | none => .error .type
          | some dim =>
            match (unravelIx d.shape k)[dim]? with
            | none => .error .index
            | some u => do return (kv.1, ← quantVal d.ndim ravprob cumprob q k dim u val)
    | _ => .error .attribute

/-- pd.py:432-458: one requested probability. -/
noncomputable def quantOne (d : PD) (ravprob cumprob : List ℝ) (q : ℝ) : Py (Dict Str Quant) := do
  let c ← npDigitize q cumprob
  d.vals.mapM (quantStep d ravprob cumprob q (c - 1))

/-- pd.py:408-461. -/
noncomputable def PD.quantile (d : PD) (qs : List ℝ) : Py (List (Dict Str Quant)) :=
  if d.dist.issingleton then
    .ok (qs.map fun _ => d.vals.map fun kv => (kv.1, .given kv.2))             -- 413-417
  else do
    let prob ← rescaleArr d.prob d.pscale.spec (.flt 1)
    let ravprob := prob.ravel
    match (cumsum ravprob).getLast? with
    | none => .error .index
    | some total =>
        let cumprob := (cumsum ravprob).map (· / max npz total)
        qs.mapM (quantOne d ravprob cumprob)

end Probayes
