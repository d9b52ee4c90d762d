/-
C96: distributions of separate variables.
-/
import Verif.Props.PDMarg
import Verif.Spec.PDProduct

namespace Probayes

/-- Distributions of variables of their own: none is conditional, and no variable is in two
of them.  Within a distribution no two variables share an axis. -/
structure Spec.Independent (fmt : Val → Str) (args : List PD) : Prop where
  wf : ∀ a ∈ args, a.WF fmt
  pos : ∀ a ∈ args, a.Pos
  own : ∀ a ∈ args, ∀ k, Spec.OwnAxis a k
  free : ∀ a ∈ args, a.cond = []
  distinct : (args.flatMap fun a => a.marg.keys).Nodup

end Probayes
