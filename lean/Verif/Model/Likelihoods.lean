/-
Model of /repo/probayes/likelihoods.py: `int_to_bin` (11-27), `bin_to_int`
(30-42) and `bool_perm_freq` (45-101).
-/
import Mathlib.Data.Int.Basic
import Mathlib.Data.Rat.Defs
import Verif.Base.Py

namespace Probayes

/-- `list(np.binary_repr(num))` converted to booleans (likelihoods.py:24 and 27)
for `num ≥ 0`: binary digits, most significant first; "0" for zero. -/
def binaryRepr (k : ℕ) : List Bool :=
  if h : k < 2 then [k == 1] else binaryRepr (k / 2) ++ [k % 2 == 1]
termination_by k

/-- `str.zfill` on a digit string (likelihoods.py:26). -/
def zfill (bs : List Bool) (n : ℕ) : List Bool := List.replicate (n - bs.length) false ++ bs

/-- likelihoods.py:11-27 for one integer.  For a negative number the digit
string starts with '-', which `astype(np.int8)` refuses with ValueError. -/
def intToBin (num : ℤ) (minDim : ℕ) : Py (List Bool) :=
  if num < 0 then .error .value
  else if minDim ≠ 0 then .ok (zfill (binaryRepr num.toNat) minDim)
  else .ok (binaryRepr num.toNat)

/-- likelihoods.py:20-23 for an array of integers.  The maximum of an empty
array raises ValueError.  For a negative maximum the digit string has one more
character (the sign); every element is then negative and refused. -/
def intToBinArr (nums : List ℤ) (minDim : ℕ) : Py (List (List Bool)) :=
  match nums with
  | [] => .error .value
  | n :: ns =>
      let m := ns.foldl max n
      let d := max minDim ((binaryRepr m.natAbs).length + if m < 0 then 1 else 0)
      (n :: ns).mapM (fun k => intToBin k d)

/-- 64-bit two's complement wrap-around of numpy integers. -/
def wrap64 (x : ℤ) : ℤ := Int.bmod x (2 ^ 64)

/-- `arr.dot(1 << np.arange(n)[::-1])` in exact integers: digits weighted by
descending powers of two. -/
def weighted : List Bool → ℤ
  | [] => 0
  | b :: bs => (if b then 2 ^ bs.length else 0) + weighted bs

/-- likelihoods.py:30-42 for one row.  Numpy computes modulo 2^64 with results in
[-2^63, 2^63) (a shift by 64 or more gives 0, which agrees modulo 2^64). -/
def binToInt (bits : List Bool) : ℤ := wrap64 (weighted bits)

/-- likelihoods.py:36-39 for a two-dimensional array (`np.hstack` of no rows
raises ValueError). -/
def binToIntArr (rows : List (List Bool)) : Py (List ℤ) :=
  if rows = [] then .error .value else .ok (rows.map binToInt)

/-- likelihoods.py:66-70: the array of counts, as a function of the index tuple
(of length `cols`); every row increments the entry it indexes. -/
def permCounts (rows : List (List Bool)) : List Bool → ℕ :=
  rows.foldl (fun counts sequence => fun idx =>
    if idx = sequence then counts idx + 1 else counts idx) (fun _ => 0)

/-- likelihoods.py:84-86: relative frequencies when labels are given.
`base_freq += counts` only rebinds the local name (for a number), so the base
frequency is not used.  Division by zero rows gives NaN entries: `none`. -/
def permRelFreq (rows : List (List Bool)) (_baseFreq : ℚ) (idx : List Bool) : Option ℚ :=
  if rows.length = 0 then none else some ((permCounts rows idx : ℚ) / (rows.length : ℚ))

end Probayes
