/-
Python substrate shared by the model: exceptions as values.
-/
namespace Probayes

/-- Exception classes raised by the modelled code (Python built-ins). -/
inductive Err where
  | assertion | value | type | index | key | attribute | notImplemented
  | zeroDivision | stopIteration
deriving DecidableEq, Repr

/-- Result of a Python call: a value or an exception. -/
abbrev Py (α : Type _) := Except Err α

/-- The call raised some exception. -/
def Raises {α : Type _} (r : Py α) : Prop := ∃ e, r = .error e

end Probayes
