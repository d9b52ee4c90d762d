/-
Specification of products of distributions (C19, C20).
-/
import Verif.Props.PDMarg

namespace Probayes

/-- No factor has `k` as a marginal variable. -/
abbrev Spec.Unmet (args : List PD) (k : Str) : Prop := ∀ b ∈ args, k ∉ b.marg.keys

/-- Factors that may be multiplied: at least two, with distinct marginal
variables; a condition is either met by the marginal variable of another factor
or is common to all factors with unmet conditions; common variables have the
same values. -/
structure Spec.Factors (fmt : Val → Str) (args : List PD) : Prop where
  two : 2 ≤ args.length
  wf : ∀ a ∈ args, a.WF fmt
  pos : ∀ a ∈ args, a.Pos
  margNe : ∀ a ∈ args, a.marg ≠ []
  marg : (args.flatMap fun a => a.marg.keys).Nodup
  met : ∀ a ∈ args, ∀ b ∈ args, ∀ k ∈ a.cond.keys, k ∈ b.marg.keys →
    Dict.get? a.cond k = Dict.get? b.marg k
  rest : ∀ a ∈ args, ∀ b ∈ args, ∀ kt ∈ a.cond, Spec.Unmet args kt.1 →
    (∃ k ∈ b.cond.keys, Spec.Unmet args k) → kt ∈ b.cond
  same : ∀ a ∈ args, ∀ b ∈ args, ∀ k ∈ a.keylist, k ∈ b.keylist → a.values k = b.values k

/-- Restrictions under which the code multiplies correctly: within a factor no
two variables share an axis, a condition common to two factors is not an array,
and a set of one integer is not common to two factors. -/
structure Spec.Plainly (args : List PD) : Prop where
  own : ∀ a ∈ args, ∀ k, Spec.OwnAxis a k
  once : args.Pairwise fun a b => ∀ k ∈ a.cond.keys, k ∈ b.cond.keys → Spec.Unmet args k →
    a.axis k = none
  sets : args.Pairwise fun a b => ∀ k n, a.values k = some (.setint n) → k ∉ b.keylist

/-- `r` is the product of the factors. -/
structure Spec.Product (args : List PD) (r : PD) : Prop where
  /-- the marginal variables are those of all factors -/
  marg : r.marg = args.flatMap PD.marg
  /-- the conditions are the unmet ones -/
  cond : ∀ kt, kt ∈ r.cond ↔ (∃ a ∈ args, kt ∈ a.cond) ∧ Spec.Unmet args kt.1
  /-- every variable keeps its values -/
  values : ∀ a ∈ args, ∀ k ∈ a.keylist, r.values k = a.values k
  /-- every array variable has its own axis, in the order of the keys -/
  own : ∀ k, Spec.OwnAxis r k
  order : Spec.Ordered r
  /-- the axes of the marginal variables are in their order, before those of the conditions -/
  margOrder : r.marg.keys.Pairwise fun k k' => ∀ a b, r.axis k = some a → r.axis k' = some b → a < b
  margFirst : ∀ k ∈ r.marg.keys, ∀ k' ∈ r.cond.keys, ∀ a b, r.axis k = some a →
    r.axis k' = some b → a < b
  /-- every entry belongs to exactly one entry of every factor -/
  index : ∀ j ∈ idx r.shape, ∀ a ∈ args, ∃! i, i ∈ idx a.shape ∧ Spec.Agree a r i j
  /-- and is the product of those -/
  entry : ∀ j ∈ idx r.shape, ∀ ix : List (List ℕ),
    List.Forall₂ (fun a i => i ∈ idx a.shape ∧ Spec.Agree a r i j) args ix →
    r.at j = (List.zipWith PD.at args ix).prod

end Probayes
