/-
Model of /repo/probayes/sp_utils.py: acceptance scores, thresholds and updates
of the Metropolis, Hastings and Gibbs samplers.
-/
import Verif.Model.PScales
import Verif.Model.Vtypes

namespace Probayes

/-- The namedtuple of sd.py:61 (`opqr`): predecessor, successor, proposal and
reverse proposal distributions, each possibly `None`. -/
structure OPQR (D : Type _) where
  o : Option D
  p : Option D
  q : Option D
  r : Option D

/-- sp_utils.py:19-27.  `prob` reads the probability of a distribution. -/
noncomputable def metropolisScores {D : Type _} (prob : D → SA) (x : OPQR D) (pscale : PSpec) :
    Py (Option ℝ) :=
  match x.p with
  | none => .error .assertion                                   -- 22
  | some succ =>
    match prob succ with
    | .array _ => .error .assertion                             -- 23
    | .scalar s =>
      match x.o with
      | none => .ok none                                        -- 24-25
      | some pred =>
        match prob pred with
        | .array _ => .error .assertion                         -- 26
        | .scalar p => do                                       -- 27
            let d ← divProb s p (some (pscale, pscale)) (.flt 1)
            return some (min 1 d)

/-- sp_utils.py:34-37: `True`, or `None` for a rejection. -/
noncomputable def metropolisUpdate (s : Option ℝ) (t : ℝ) : Option Bool :=
  match s with
  | none => some true
  | some s => if s ≥ t then some true else none

/-- sp_utils.py:40-64. -/
noncomputable def hastingsScores {D : Type _} (prob : D → SA) (x : OPQR D) (pscale : PSpec) :
    Py (Option ℝ) :=
  match x.p with
  | none => .error .assertion                                   -- 43
  | some succ =>
    match prob succ with
    | .array _ => .error .assertion                             -- 44
    | .scalar s =>
      match x.o with
      | none => .ok none                                        -- 45-46
      | some pred =>
        match prob pred with
        | .array _ => .error .assertion                         -- 47
        | .scalar p =>
          match x.q with
          | none => .ok none                                    -- 48-49
          | some prop =>
            match prob prop with
            | .array _ => .error .assertion                     -- 51
            | .scalar q => do
                let q' ← rescale q pscale (.flt 1)              -- 52
                if q' ≤ 0 then return none                      -- 53-54
                else
                  match x.r with
                  | none =>                                     -- 55-56
                      let d ← divProb s p (some (pscale, pscale)) (.flt 1)
                      return some (min 1 d)
                  | some revp =>
                    match prob revp with
                    | .array _ => .error .assertion             -- 58
                    | .scalar r =>
                      let r' ← rescale r pscale (.flt 1)        -- 59
                      if r' ≤ 0 then return some 1              -- 60-61
                      else
                        let d ← divProb (s * q') (p * r') (some (pscale, pscale)) (.flt 1)
                        return some (min 1 d)                   -- 62-64

/-- sp_utils.py:71-72. -/
noncomputable def hastingsUpdate (s : Option ℝ) (t : ℝ) : Option Bool := metropolisUpdate s t

/-- sp_utils.py:83-84. -/
def gibbsUpdate : Option Bool := some true

/-- A transition distribution p(succ | pred) reduced to its marginal keys,
conditional keys and probability. -/
structure StepDist where
  marg : List String
  cond : List String
  prob : SA

/-- rf.py:520-538 `reval_tran`: marginals and conditions are exchanged and the
probability is kept (the lines evaluating the reverse transition are disabled). -/
def revalTran (d : StepDist) : StepDist := ⟨d.cond, d.marg, d.prob⟩

end Probayes
