/-
Model of division, /repo/probayes/pd.py: `__truediv__` (572-615), with
/repo/probayes/pscales.py: `div_prob` (219-238) on arrays.
-/
import Verif.Model.PDOps
import Verif.Model.PDProduct

namespace Probayes

/-- pscales.py:219-238 on arrays, with both scales given: the result is on the
scale of the dividend. -/
noncomputable def divProbArr (x y : Arr) (s t : PSpec) : Py Arr := do
  let a ← rescaleArr x s .none
  let b ← rescaleArr y t .none
  let q ← divArr a b
  rescaleArr q .none s

/-- State of the loop pd.py:599-605. -/
structure DivState where
  marg : Dict Str Str
  cond : Dict Str Str
  vals : Dict Str Val
  shape : List ℕ

/-- pd.py:601: move a key from the marginal to the conditional side. -/
def DivState.move (st : DivState) (k : Str) : Py DivState :=
  match Dict.get? st.marg k with
  | some t => .ok { st with marg := st.marg.erase k, cond := Dict.set st.cond k t }
  | none => .error .key

/-- pd.py:603: `re_shape[self.dims[key]] = other[key].size`.  Values that are not
arrays are taken to have no `size`; an array always has an axis. -/
def DivState.resize (d e : PD) (st : DivState) (k : Str) : Py DivState := do
  match ← e.getItem k with
  | .arr _ data => match ← dimOf d.dims k with
    | some a => return { st with shape := st.shape.set a data.length }
    | none => .error .type
  | _ => .error .attribute

/-- pd.py:599-605: one iteration. -/
def divStep (d e : PD) (st : DivState) (kv : Str × Val) : Py DivState :=
  if kv.1 ∈ e.marg.keys then do
    let st ← st.move kv.1
    if !kv.2.issingleton && !e.dist.issingleton then st.resize d e kv.1 else return st
  else .ok { st with vals := Dict.set st.vals kv.1 kv.2 }

/-- pd.py:578-589: the two assertions. -/
def divOK (d e : PD) : Bool :=
  d.cond.keys.all (· ∈ e.cond.keys) && e.cond.keys.all (· ∈ d.cond.keys) &&
  (!e.dist.issingleton ||
    (let scalars := d.vals.filter fun kv => decide (kv.1 ∈ d.marg.keys) && kv.2.issingleton
     (Dict.keys scalars).all (· ∈ e.marg.keys) && e.marg.keys.all (· ∈ Dict.keys scalars)))

/-- pd.py:613: the probabilities of the divisor along the axes of the dividend. -/
def divisorProb (e : PD) (shape : List ℕ) : Py Arr :=
  if e.dist.issingleton then .ok e.prob else reshape shape e.prob

/-- pd.py:572-615.  The values start as a copy of the *texts* of the conditions
(596); every one of them is overwritten by its value (605), unless it is not a
key of the distribution. -/
noncomputable def PD.truediv (fmt : Val → Str) (d e : PD) : Py PD :=
  if divOK d e then do
    let st ← d.vals.foldlM (divStep d e)
      ⟨d.marg, d.cond, d.cond.map fun kt => (kt.1, .other), List.replicate d.ndim 1⟩
    let vals := (d.vals.filter fun kv => kv.1 ∈ e.marg.keys).foldl
      (fun acc kv => Dict.set acc kv.1 kv.2) st.vals                          -- 607-609
    let divp ← divisorProb e st.shape
    let prob ← divProbArr d.prob divp d.pscale.spec e.pscale.spec
    pdInit fmt (margcondStr st.marg st.cond) vals (some d.dims) prob d.pscale.spec
  else .error .assertion

end Probayes
