/-
Specification of division: p(A, B | C) / p(A | C) = p(B | C, A).
-/
import Verif.Spec.PD
import Verif.Props.PDMarg

namespace Probayes

/-- `e` has some of the marginal variables of `d`, with the same values, and the
same conditions.

The last four are restrictions of the code: an array may not be among the
conditions; the axes of both are in the same order; variables on the same axis go
together; and when all variables of `e` are scalars it has all the scalar
marginal variables of `d`. -/
structure Spec.Divisor (d e : PD) : Prop where
  marg : ∀ k ∈ e.marg.keys, k ∈ d.marg.keys
  cond : ∀ k, k ∈ e.cond.keys ↔ k ∈ d.cond.keys
  values : ∀ k ∈ e.keylist, e.values k = d.values k
  given : ∀ k ∈ e.cond.keys, e.axis k = none
  order : ∀ k k' a a' b b', d.axis k = some a → d.axis k' = some a' → e.axis k = some b →
    e.axis k' = some b' → (b < b' ↔ a < a')
  together : ∀ k k' a, d.axis k = some a → d.axis k' = some a → k ∈ e.marg.keys → k' ∈ e.marg.keys
  scalars : (∀ k, e.axis k = none) → ∀ k ∈ d.marg.keys, d.axis k = none → k ∈ e.marg.keys

/-- `r` is the quotient of `d` by `e`. -/
structure Spec.Quotient (d e r : PD) : Prop where
  /-- the variables of the divisor move to the conditional side -/
  marg : r.marg = d.marg.filter fun kt => kt.1 ∉ e.marg.keys
  condFirst : d.cond <+: r.cond
  cond : ∀ kt, kt ∈ r.cond ↔ kt ∈ d.cond ∨ (kt ∈ d.marg ∧ kt.1 ∈ e.marg.keys)
  /-- the variables, their values, axes and the scale are those of the dividend -/
  keylist : ∀ k, k ∈ r.keylist ↔ k ∈ d.keylist
  values : ∀ k, r.values k = d.values k
  axis : ∀ k, r.axis k = d.axis k
  shape : r.shape = d.shape
  pscale : r.pscale = d.pscale
  /-- every entry belongs to exactly one entry of the divisor -/
  index : ∀ i ∈ idx d.shape, ∃! j, j ∈ idx e.shape ∧ Spec.Agree d e i j
  /-- by which it is divided, unless that is below the smallest normal float -/
  entry : ∀ i ∈ idx d.shape, ∀ j ∈ idx e.shape, Spec.Agree d e i j → npz ≤ e.at j →
    Spec.Writable d.pscale (d.at i / e.at j) → r.at i = d.at i / e.at j
  /-- in which case it is divided by the smallest normal float -/
  below : ∀ i ∈ idx d.shape, ∀ j ∈ idx e.shape, Spec.Agree d e i j → e.at j < npz →
    Spec.Writable d.pscale (d.at i / npz) → r.at i = d.at i / npz

end Probayes
