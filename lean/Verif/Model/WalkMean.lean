/-
Model of random walks of a random field used to estimate an area: repeated calls of `step`
(/repo/probayes/rf.py:605-644), first with `{0}`, then with the successors of the last, as in
/repo/examples/omc/omc_rw_circle.py:29-44.  Only the values are modelled here; the probabilities
of the distributions that `step` gives are C72.  The proposal function set there by `set_prop`
has no part in `step`.
-/
import Verif.Model.RFCov

namespace Probayes

/-- `{0}` asked of every variable (rf.py:621-625, field.py:395-466, variable.py:568-586): one draw
each, `u i` being that of the `i`-th variable. -/
noncomputable def fieldDraw {n : ℕ} (cs : Fin n → FCoord) (u : Fin n → ℝ) : Py (Fin n → ℝ) :=
  open Classical in
  if ∀ i, ∃ v, (cs i).x.evaluate (cs i).uf 0 (fun _ => u i) = .ok (.scalar v) then
    .ok fun i => match (cs i).x.evaluate (cs i).uf 0 (fun _ => u i) with
      | .ok (.scalar v) => v
      | _ => 0
  else .error .assertion

/-- omc_rw_circle.py:29-38: the predecessors of the steps, each step starting at the successor of
the one before.  A step that raises ends the run. -/
def stepRun {V Ω : Type} (step : V → Ω → Py V) : V → List Ω → Py (List V)
  | _, [] => .ok []
  | v, ω :: ωs => do
      let w ← step v ω
      let vs ← stepRun step w ωs
      return v :: vs

/-- omc_rw_circle.py:29-39: a run of as many steps as there are draws in `us`, from the start drawn
with `u₀`. -/
noncomputable def walkRun {n : ℕ} (F : RFTrans) (names : Fin n → Str) (cs : Fin n → FCoord) (D : FieldDelta)
    (bound : Bool) (u₀ : Fin n → ℝ) (us : List (Fin n → ℝ)) : Py (List (Fin n → ℝ)) := do
  let v ← fieldDraw cs u₀
  stepRun (fun v u => F.step names cs D bound v ⟨u, 0⟩) v us

/-- omc_rw_circle.py:38, 42-43: the size of the whole times the mean of the indicator over the
predecessors. -/
noncomputable def areaEstimate {V : Type} (size : ℝ) (inside : V → Bool) (vs : List V) : ℝ :=
  size * ((vs.map fun v => if inside v then (1:ℝ) else 0).sum / vs.length)

end Probayes
