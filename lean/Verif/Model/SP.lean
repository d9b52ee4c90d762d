/-
Model of /repo/probayes/sp.py (samplers of a stochastic process), of
/repo/probayes/sp_utils.py:8-16 (`sample_generator`) and of
/repo/probayes/sd.py:184-288 (`sample`).

Distributions are values of an arbitrary type `D`; what the process computes
(proposal steps, probability evaluations, scores) are parameters that may depend
on a random outcome `Ω` and read and write a process state `σ` (for instance the
component cursor of rf.py:446-452).  Generator objects are numbered in order of
creation; Python's identity-keyed dictionaries are functions on these numbers.
-/
import Verif.Model.MCMC

namespace Probayes

/-! ### sd.py: sample -/

/-- What `sample` with a transition needs: `step` from an argument that is not
an opqr object (line 264), `step` from the successor values of a proposal
(273-274), the reverse proposal (278; absent for symmetric transitions) and the
evaluation of the probability at the successor values (281-287). -/
structure TranOps (σ D Ω : Type _) where
  stepArg : Ω → σ → σ × Py D
  stepFrom : D → Ω → σ → σ × Py D
  reval : Option (D → Py D)
  call : D → Ω → Py D

/-- sd.py:276-288: the part of `_sample_tran` after the proposal. -/
def sampleFinish {σ D Ω : Type _} (T : TranOps σ D Ω) (orig : Option D) (prop : D) (ω : Ω) :
    Py (OPQR D) := do
  let revp ← (match T.reval with
    | none => (.ok none : Py (Option D))
    | some f => do return some (← f prop))
  let prob ← T.call prop ω
  return ⟨orig, some prob, some prop, revp⟩

/-- sd.py:253-288 `_sample_tran`; `last = none` is a call with an argument that
is not an opqr object. -/
def sampleTran {σ D Ω : Type _} (T : TranOps σ D Ω) (last : Option (OPQR D)) (ω : Ω) (st : σ) :
    σ × Py (OPQR D) :=
  match last with
  | none =>
      match T.stepArg ω st with
      | (st', .error e) => (st', .error e)
      | (st', .ok prop) => (st', sampleFinish T none prop ω)
  | some l =>
      match l.q with
      | none => (st, .error .assertion)                     -- 271-272
      | some dist =>
          match T.stepFrom dist ω st with
          | (st', .error e) => (st', .error e)
          | (st', .ok prop) => (st', sampleFinish T l.p prop ω)

/-- sd.py:228-250 `_sample_prop` (a proposal distribution without transition):
`propose` from scratch or around the values of the last proposal. -/
structure PropOps (σ D Ω : Type _) where
  proposeArg : Ω → σ → σ × Py D
  proposeFrom : D → Ω → σ → σ × Py D
  call : D → Ω → Py D

/-- sd.py:228-250. -/
def sampleProp {σ D Ω : Type _} (T : PropOps σ D Ω) (last : Option (OPQR D)) (ω : Ω) (st : σ) :
    σ × Py (OPQR D) :=
  let fin (prop : D) : Py (OPQR D) := do
    let prob ← T.call prop ω
    return ⟨none, some prob, some prop, none⟩
  match last with
  | none =>
      match T.proposeArg ω st with
      | (st', .error e) => (st', .error e)
      | (st', .ok prop) => (st', fin prop)
  | some l =>
      match l.q with
      | none => (st, .error .assertion)
      | some dist =>
          match T.proposeFrom dist ω st with
          | (st', .error e) => (st', .error e)
          | (st', .ok prop) => (st', fin prop)

/-! ### sp.py: next -/

/-- The namedtuple of sp.py:49 (`opqrstuv`). -/
structure Sample (D : Type _) where
  o : Option D
  p : Option D
  q : Option D
  r : Option D
  s : Option ℝ
  t : Option ℝ
  u : Option Bool
  v : Option D

/-- What `SP.next` returns: the distribution from a plain call when there is no
proposal (sp.py:233-235), otherwise a sample. -/
inductive Out (D : Type _) where
  | plain (d : D)
  | sample (s : Sample D)

/-- A process.  `plain` is used when there is no proposal (`no_proposal`,
227-228).  `refresh` is the case `last = {0}` (239-241): proposal without
transition nor delta, where the last sample is not refed. -/
structure Proc (σ D Ω : Type _) where
  plain : Option (Ω → σ → σ × Py D)
  sample : Option (OPQR D) → Ω → σ → σ × Py (OPQR D)
  refresh : Bool
  scores : Option (OPQR D → Py (Option ℝ))
  thresh : Option (Ω → ℝ)
  update : Option (Option ℝ → Option ℝ → Py (Option Bool))

/-- sp.py:103-110 `eval_expr` of the scores: `None` if unset. -/
def evalScores {D : Type _} (f : Option (OPQR D → Py (Option ℝ))) (x : OPQR D) : Py (Option ℝ) :=
  match f with
  | none => .ok none
  | some f => f x

/-- sp.py:103-110 `eval_expr` of the update rule: `None` if unset. -/
def evalUpdate (f : Option (Option ℝ → Option ℝ → Py (Option Bool))) (s t : Option ℝ) :
    Py (Option Bool) :=
  match f with
  | none => .ok none
  | some f => f s t

/-- sp.py:249-258: evaluation of scores, threshold and update, and the verdict.
Returns the new last opqr and the output. -/
def judge {σ D Ω : Type _} (P : Proc σ D Ω) (last : Option (OPQR D)) (x : OPQR D) (ω : Ω) :
    Py (Option (OPQR D) × Sample D) := do
  let s ← evalScores P.scores x
  let t : Option ℝ := P.thresh.map (fun f => f ω)
  let u ← evalUpdate P.update s t
  if P.update.isNone || last.isNone || u = some true then         -- 255
    return (some x, ⟨x.o, x.p, x.q, x.r, s, t, u, x.p⟩)
  else
    return (last, ⟨x.o, x.p, x.q, x.r, s, t, u, x.o⟩)

/-- sp.py:221-258 for one sampler with last state `last`: the new process state,
the new last state and the output or exception. -/
def nextCore {σ D Ω : Type _} (P : Proc σ D Ω) (last : Option (OPQR D)) (ω : Ω) (st : σ) :
    σ × Option (OPQR D) × Py (Out D) :=
  match P.plain with
  | some f =>
      match f ω st with
      | (st', .error e) => (st', last, .error e)
      | (st', .ok d) => (st', last, .ok (.plain d))
  | none =>
      match P.sample (if P.refresh then none else last) ω st with
      | (st', .error e) => (st', last, .error e)
      | (st', .ok x) =>
          match judge P last x ω with
          | .error e => (st', last, .error e)
          | .ok (l, smp) => (st', l, .ok (.sample smp))

/-! ### sp.py: samplers as generators -/

/-- A generator object made by `sample_generator`: its arguments and whether it
has finished (returned, or raised). -/
structure GenObj where
  samplerId : ℕ
  stop : Option ℤ
  done : Bool

/-- State of a process object: the list of its samplers (generator numbers), the
counters, the last opqr of each sampler (`none` = no entry in the dictionary),
all generator objects ever made, and the process state. -/
structure SPState (σ D : Type _) where
  samplers : List ℕ
  counter : ℕ → ℕ
  last : ℕ → Option (Option (OPQR D))
  gens : ℕ → GenObj
  made : ℕ
  st : σ

/-- A process just after construction (sp.py:31-33). -/
def SPState.init {σ : Type _} (D : Type _) (st : σ) : SPState σ D :=
  ⟨[], fun _ => 0, fun _ => none, fun _ => ⟨0, none, true⟩, 0, st⟩

/-- sp.py:261-278. -/
def mkSampler {σ D : Type _} (S : SPState σ D) (stop : Option ℤ) : SPState σ D :=
  { S with
    samplers := S.samplers ++ [S.made]
    counter := Function.update S.counter S.made 0
    last := Function.update S.last S.made (some none)
    gens := Function.update S.gens S.made ⟨S.samplers.length, stop, false⟩
    made := S.made + 1 }

/-- sp.py:201-206 with an integer id. -/
def getSampler {σ D : Type _} (S : SPState σ D) (i : ℕ) : Py ℕ :=
  match S.samplers[i]? with
  | some g => .ok g
  | none => .error .index

/-- sp.py:113-128 with `sampler_id=None`. -/
def resetAll {σ D : Type _} (S : SPState σ D) : SPState σ D := { S with samplers := [] }

/-- sp.py:113-128 for the generator object `g` (default `reset_last=True`). -/
def resetGen {σ D : Type _} (S : SPState σ D) (g : ℕ) : SPState σ D :=
  { S with
    counter := Function.update S.counter g 0
    last := Function.update S.last g (some none) }

/-- sp.py:221-258 with an integer id. -/
def spNext {σ D Ω : Type _} (P : Proc σ D Ω) (S : SPState σ D) (i : ℕ) (ω : Ω) :
    SPState σ D × Py (Out D) :=
  match getSampler S i with
  | .error e => (S, .error e)
  | .ok g =>
      let S := { S with counter := Function.update S.counter g (S.counter g + 1) }
      match S.last g with
      | none => (S, .error .key)
      | some l =>
          match nextCore P l ω S.st with
          | (st', l', r) => ({ S with last := Function.update S.last g (some l'), st := st' }, r)

/-- Mark a generator as finished. -/
def SPState.finish {σ D : Type _} (S : SPState σ D) (g : ℕ) : SPState σ D :=
  { S with gens := Function.update S.gens g { S.gens g with done := true } }

/-- `yield sp.next(sampler_id, ...)` inside generator `g`: an exception finishes
the generator. -/
def genAdvance {σ D Ω : Type _} (P : Proc σ D Ω) (S : SPState σ D) (g i : ℕ) (ω : Ω) :
    SPState σ D × Py (Out D) :=
  match spNext P S i ω with
  | (S', .ok x) => (S', .ok x)
  | (S', .error e) => (S'.finish g, .error e)

/-- Python's `next(generator)` on a generator of sp_utils.py:8-16.  An exhausted
generator raises StopIteration; an exception inside finishes the generator. -/
def genNext {σ D Ω : Type _} (P : Proc σ D Ω) (S : SPState σ D) (g : ℕ) (ω : Ω) :
    SPState σ D × Py (Out D) :=
  let G := S.gens g
  if G.done then (S, .error .stopIteration)
  else
    match G.stop with
    | none => genAdvance P S g G.samplerId ω                                                -- 9-11
    | some n =>
        match getSampler S G.samplerId with
        | .error e => (S.finish g, .error e)
        | .ok h =>
            if (S.counter h : ℤ) < n then genAdvance P S g G.samplerId ω                    -- 13-14
            else ((resetGen S h).finish g, .error .stopIteration)  -- 15-16

/-- Drawing repeatedly from a generator, `ω k` being the random outcome of the
k-th draw; stops at the first exception, which is returned with the outputs. -/
def drain {σ D Ω : Type _} (P : Proc σ D Ω) (g : ℕ) (ω : ℕ → Ω) :
    ℕ → SPState σ D → SPState σ D × List (Out D) × Option Err
  | 0, S => (S, [], none)
  | n + 1, S =>
      match genNext P S g (ω 0) with
      | (S', .error e) => (S', [], some e)
      | (S', .ok x) =>
          match drain P g (fun k => ω (k + 1)) n S' with
          | (S'', xs, e) => (S'', x :: xs, e)

/-- sp.py:281-295 `walk` with a stop count.  `fuel` bounds the number of loop
iterations that are followed; the loop itself leaves at the first iteration with
`len(steps) >= stop`, so `fuel > stop` follows it to the end. -/
def walk {σ D Ω : Type _} (P : Proc σ D Ω) (g : ℕ) (ω : ℕ → Ω) (stop : ℕ) :
    ℕ → List (Out D) → SPState σ D → SPState σ D × Py (List (Out D))
  | 0, steps, S => (S, .ok steps)
  | fuel + 1, steps, S =>
      match genNext P S g (ω 0) with
      | (S', .error .stopIteration) => (S', .ok steps)
      | (S', .error e) => (S', .error e)
      | (S', .ok x) =>
          if stop ≤ steps.length then (S', .ok steps)           -- 292-293
          else walk P g (fun k => ω (k + 1)) stop fuel (steps ++ [x]) S'

/-! ### sp.py:131-198, collecting samples -/

/-- The attributes collected from a list of samples (before the distributions
are summated, 192-196). -/
structure Collected (D : Type _) where
  o : Option (List D)
  p : Option (List D)
  q : Option (List D)
  r : Option (List D)
  s : Option (List ℝ)
  t : Option (List ℝ)
  u : List (Option Bool)
  v : Option (List D)

/-- sp.py:166-170 `_maybe_append`. -/
def maybeAppend {α : Type _} (acc : Option (List α)) : Option α → Option (List α)
  | none => acc
  | some x => some (acc.getD [] ++ [x])

/-- One turn of the loop sp.py:172-190 (for opqrstuv samples); `upd` is whether
an update function is set. -/
def collectStep {D : Type _} (upd : Bool) (c : Collected D) (x : Sample D) : Collected D :=
  if x.u = some false then c                                     -- 182-183
  else
    { o := maybeAppend c.o x.o
      p := maybeAppend c.p x.p
      q := maybeAppend c.q x.q
      r := maybeAppend c.r x.r
      s := maybeAppend c.s x.s
      t := maybeAppend c.t x.t
      u := if upd then c.u ++ [x.u] else c.u
      v := maybeAppend c.v x.v }

/-- sp.py:160-190. -/
def collect {D : Type _} (upd : Bool) (xs : List (Sample D)) : Collected D :=
  xs.foldl (collectStep upd) ⟨none, none, none, none, none, none, [], none⟩

end Probayes
