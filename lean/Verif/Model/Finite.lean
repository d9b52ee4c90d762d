/-
Whether values are finite: `probayes/vtypes.py`, `isfinite`.
-/
import Verif.Base.Py

namespace Probayes

/-- What a number may be. -/
inductive FinNum where
  | finite
  | infinite
  | nan
deriving DecidableEq

/-- `np.isfinite` of a number. -/
def FinNum.isfinite : FinNum → Bool
  | .finite => true
  | .infinite => false
  | .nan => false

/-- Arguments of `vtypes.isfinite`. -/
inductive FinArg where
  /-- a Python or numpy number -/
  | num (x : FinNum)
  /-- a text, for which `np.isscalar` is true -/
  | text
  /-- a numpy array of numbers; its entries -/
  | arr (xs : List FinNum)
  | tuple (vs : List FinArg)
  | list (vs : List FinArg)
  /-- `sympy.oo` or `-sympy.oo` -/
  | oo
  /-- another object of Sympy that stands for a number: `zoo` is infinite, `nan` is not a number, the rest is finite -/
  | sym (x : FinNum)
  /-- a set of numbers -/
  | set (xs : List FinNum)

/-- What `vtypes.isfinite` returns. -/
inductive FinRes where
  | flag (b : Bool)
  | flags (bs : List Bool)
  | tuple (rs : List FinRes)
  | list (rs : List FinRes)

mutual

/-- `isfinite`: vtypes.py 130-140. -/
def isfiniteVar : FinArg → Py FinRes
  | .num x => .ok (.flag x.isfinite)                                     -- 131-132
  | .text => .error .type                                                -- 132: np.isfinite of a text
  | .arr xs => .ok (.flags (xs.map FinNum.isfinite))                     -- 131-132
  | .tuple vs => match isfiniteEach vs with                              -- 133-134, 137
    | .ok rs => .ok (.tuple rs)
    | .error e => .error e
  | .list vs => match isfiniteEach vs with                               -- 133-136
    | .ok rs => .ok (.list rs)
    | .error e => .error e
  | .oo => .ok (.flag false)                                             -- 138-139
  | .sym _ => .ok (.flag true)                                           -- 140: neither is equal to oo
  | .set _ => .ok (.flag true)                                           -- 140

/-- The list comprehension of line 134. -/
def isfiniteEach : List FinArg → Py (List FinRes)
  | [] => .ok []
  | v :: vs => match isfiniteVar v with
    | .error e => .error e
    | .ok r => match isfiniteEach vs with
      | .error e => .error e
      | .ok rs => .ok (r :: rs)

end

end Probayes
