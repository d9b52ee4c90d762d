/-
Property C59: samplers of a process with a proposal distribution.  Also the part of
C38 about resetting a whole process.
-/
import Verif.Props.SP

namespace Probayes

variable {σ D Ω : Type}

/-- A process with a proposal distribution (set_prop) and no transition; `delta`
tells whether a delta is set (sp.py:239-241). -/
def propProc (T : PropOps σ D Ω) (delta : Bool) (scores : Option (OPQR D → Py (Option ℝ)))
    (thresh : Option (Ω → ℝ)) (update : Option (Option ℝ → Option ℝ → Py (Option Bool))) :
    Proc σ D Ω :=
  ⟨none, sampleProp T, !delta, scores, thresh, update⟩

/-- Specification of one proposal: without a delta, or at the start, from scratch;
otherwise from the values last accepted. -/
def Spec.proposal (T : PropOps σ D Ω) (delta : Bool) (pos : Option D) (ω : Ω) (st : σ) : Py D :=
  match pos, delta with
  | some d, true => (T.proposeFrom d ω st).2
  | _, _ => (T.proposeArg ω st).2

open Classical in
/-- Specification of the samples made from proposals, given the proposal last
accepted (none at the start) and the random outcomes: every sample is a proposal
with its probability; the first is taken, the others if accepted. -/
inductive Spec.Proposed (T : PropOps σ D Ω) (delta hasUpdate : Bool) :
    Option D → (ℕ → Ω) → List (Sample D) → Prop
  | nil (pos ω) : Spec.Proposed T delta hasUpdate pos ω []
  | cons (pos : Option D) (ω : ℕ → Ω) (x : Sample D) (xs) (prop val : D) (st : σ) :
      Spec.proposal T delta pos (ω 0) st = .ok prop → T.call prop (ω 0) = .ok val →
      x.q = some prop → x.p = some val → x.o = none → x.r = none →
      (pos = none ∨ Spec.Accepted hasUpdate x → x.v = some val) →
      (¬ (pos = none ∨ Spec.Accepted hasUpdate x) → x.v = none) →
      Spec.Proposed T delta hasUpdate
        (if pos = none ∨ Spec.Accepted hasUpdate x then some prop else pos)
        (fun k => ω (k + 1)) xs →
      Spec.Proposed T delta hasUpdate pos ω (x :: xs)

theorem sampleProp_ok (T : PropOps σ D Ω) (delta : Bool) (last : Option (OPQR D)) (pos : Option D)
    (hpos : last.map OPQR.q = pos.map some) (ω : Ω) (st : σ) (x : OPQR D)
    (h : (sampleProp T (if !delta then none else last) ω st).2 = .ok x) :
    ∃ prop val, Spec.proposal T delta pos ω st = .ok prop ∧ T.call prop ω = .ok val ∧
      x = ⟨none, some val, some prop, none⟩ := by
  have hfin : ∀ p : D, (do let prob ← T.call p ω; return ⟨none, some prob, some p, none⟩ : Py (OPQR D)) = .ok x →
      ∃ val, T.call p ω = .ok val ∧ x = ⟨none, some val, some p, none⟩ := by
    intro p hp
    rcases hc : T.call p ω with e | val <;> simp [hc, bind, Except.bind, pure, Except.pure] at hp
    exact ⟨val, rfl, hp.symm⟩
  have harg : (sampleProp T none ω st).2 = .ok x → ∃ prop val, (T.proposeArg ω st).2 = .ok prop ∧
      T.call prop ω = .ok val ∧ x = ⟨none, some val, some prop, none⟩ := by
    intro h
    simp only [sampleProp] at h
    rcases hp : T.proposeArg ω st with ⟨st', e | prop⟩ <;> rw [hp] at h
    · simp at h
    · obtain ⟨val, h1, h2⟩ := hfin prop h
      exact ⟨prop, val, rfl, h1, h2⟩
  rcases delta with _ | _
  · have : Spec.proposal T false pos ω st = (T.proposeArg ω st).2 := by
      unfold Spec.proposal; rcases pos with _ | d <;> rfl
    rw [this]
    exact harg h
  · rcases last with _ | l
    · obtain rfl : pos = none := by rcases pos with _ | d <;> simp at hpos ⊢
      exact harg h
    · rcases pos with _ | d
      · simp at hpos
      · have hq : l.q = some d := by simpa using hpos
        simp only [Bool.not_true, Bool.false_eq_true, if_false, sampleProp, hq] at h
        rcases hp : T.proposeFrom d ω st with ⟨st', e | prop⟩ <;> rw [hp] at h
        · simp at h
        · obtain ⟨val, h1, h2⟩ := hfin prop h
          exact ⟨prop, val, by simp [Spec.proposal, hp], h1, h2⟩

theorem nextCore_prop (T : PropOps σ D Ω) (delta : Bool) (scores thresh update)
    (last : Option (OPQR D)) (pos : Option D) (hpos : last.map OPQR.q = pos.map some) (ω : Ω) (st : σ)
    (x : Out D) (h : (nextCore (propProc T delta scores thresh update) last ω st).2.2 = .ok x) :
    ∃ (y : Sample D) (prop val : D), x = .sample y ∧ Spec.proposal T delta pos ω st = .ok prop ∧
      T.call prop ω = .ok val ∧ y.q = some prop ∧ y.p = some val ∧ y.o = none ∧ y.r = none ∧
      (pos = none ∨ Spec.Accepted update.isSome y → y.v = some val) ∧
      (¬ (pos = none ∨ Spec.Accepted update.isSome y) → y.v = none) ∧
      (pos = none ∨ Spec.Accepted update.isSome y →
        ((nextCore (propProc T delta scores thresh update) last ω st).2.1).map OPQR.q =
          some (some prop)) ∧
      (¬ (pos = none ∨ Spec.Accepted update.isSome y) →
        ((nextCore (propProc T delta scores thresh update) last ω st).2.1).map OPQR.q =
          pos.map some) := by
  have hnone : last = none ↔ pos = none := by
    rcases last with _ | l <;> rcases pos with _ | d <;> simp at hpos ⊢
  have hs := sampleProp_ok T delta last pos hpos ω st
  generalize hinp : (if (!delta) = true then none else last) = inp at hs
  have hcore : nextCore (propProc T delta scores thresh update) last ω st =
      (match sampleProp T inp ω st with
      | (st', .error e) => (st', last, .error e)
      | (st', .ok x) =>
          match judge (propProc T delta scores thresh update) last x ω with
          | .error e => (st', last, .error e)
          | .ok (l, smp) => (st', l, .ok (.sample smp))) := by
    subst hinp; rfl
  rw [hcore] at h ⊢
  rcases hsm : sampleProp T inp ω st with ⟨st', e | z⟩ <;>
    simp only [hsm] at h hs ⊢
  · simp at h
  obtain ⟨prop, val, h1, h2, rfl⟩ := hs z rfl
  rcases hj : judge (propProc T delta scores thresh update) last
    ⟨none, some val, some prop, none⟩ ω with e | ⟨l, y⟩ <;> simp only [hj] at h ⊢
  · simp at h
  obtain ⟨j1, j2, j3, j4, hv⟩ := judge_ok _ _ _ _ _ _ hj
  have hacc : ((propProc T delta scores thresh update).update = none ∨ last = none ∨ y.u = some true) ↔
      (pos = none ∨ Spec.Accepted update.isSome y) := by
    rw [hnone]
    unfold Spec.Accepted
    rcases update with _ | f <;> simp [propProc]
  simp only [hacc] at hv
  refine ⟨y, prop, val, by simpa using h.symm, h1, h2, j3, j2, j1, j4, ?_, ?_, ?_, ?_⟩
  · intro ha
    rcases hv with ⟨-, -, hv⟩ | ⟨hn, -⟩
    · exact hv
    · exact absurd ha hn
  · intro ha
    rcases hv with ⟨hn, -⟩ | ⟨-, -, hv⟩
    · exact absurd hn ha
    · exact hv
  · intro ha
    rcases hv with ⟨-, rfl, -⟩ | ⟨hn, -⟩
    · rfl
    · exact absurd ha hn
  · intro ha
    rcases hv with ⟨hn, -⟩ | ⟨-, rfl, -⟩
    · exact absurd hn ha
    · exact hpos

open Classical in
theorem proposed_of_live (T : PropOps σ D Ω) (delta : Bool) (scores thresh update)
    (stop : Option ℤ) (g n : ℕ) :
    ∀ (S : SPState σ D) (ω : ℕ → Ω) (last : Option (OPQR D)) (pos : Option D) (c : ℕ),
      last.map OPQR.q = pos.map some → Live S g stop last c →
      ∃ xs : List (Sample D),
        (drain (propProc T delta scores thresh update) g ω n S).2.1 = xs.map .sample ∧
        Spec.Proposed T delta update.isSome pos ω xs := by
  induction n with
  | zero => intro S ω last pos c _ _; exact ⟨[], rfl, .nil _ _⟩
  | succ n ih =>
    intro S ω last pos c hpos hlive
    by_cases hc : ∀ m, stop = some m → (c : ℤ) < m
    · rcases hx : (nextCore (propProc T delta scores thresh update) last (ω 0) S.st).2.2 with e | x
      · have := genNext_error _ S g stop _ c (ω 0) hlive hc e hx
        refine ⟨[], ?_, .nil _ _⟩
        rcases hg : genNext (propProc T delta scores thresh update) S g (ω 0) with ⟨S', r⟩
        rw [hg] at this; simp only at this; subst this
        simp [drain, hg]
      · obtain ⟨S', hS', hl', _, _⟩ := genNext_live _ S g stop _ c (ω 0) hlive hc x hx
        obtain ⟨y, prop, val, rfl, h1, h2, h3, h4, h5, h6, h7, h8, h9, h10⟩ :=
          nextCore_prop T delta scores thresh update last pos hpos (ω 0) S.st x hx
        obtain ⟨xs, hxs, hch⟩ := ih S' (fun k => ω (k+1)) _
          (if pos = none ∨ Spec.Accepted update.isSome y then some prop else pos) (c+1) (by
            split
            · rename_i ha; exact h9 ha
            · rename_i ha; exact h10 ha) hl'
        exact ⟨y :: xs, by simp [drain, hS', hxs],
          .cons _ _ _ _ prop val S.st h1 h2 h3 h4 h5 h6 h7 h8 hch⟩
    · push Not at hc
      obtain ⟨m, rfl, hm⟩ := hc
      exact ⟨[], by simp [drain, genNext_stop _ S g m _ c (ω 0) hlive hm], .nil _ _⟩

/-- C59 full claim: everything a new sampler yields is a proposal with its
probability, and the verdict is the probability of the proposal last accepted. -/
def C59_claim : Prop :=
  ∀ (σ D Ω : Type) (T : PropOps σ D Ω) (delta : Bool) (scores thresh update) (stop : Option ℤ)
    (S : SPState σ D) (ω : ℕ → Ω) (n : ℕ), ∃ xs : List (Sample D),
      (drain (propProc T delta scores thresh update) S.made ω n (mkSampler S stop)).2.1 =
        xs.map .sample ∧
      Spec.Proposed T delta update.isSome none ω xs ∧
      ∀ k x y, xs[k]? = some x → xs[k + 1]? = some y → ¬ Spec.Accepted update.isSome y → y.v = x.v

/-- C59 except for the verdict of rejected samples (which is None): every sample is
a proposal with its probability; the first is taken, the others if accepted; with a
delta proposals start from the one last accepted, without from scratch. -/
theorem C59_proposed_partial (T : PropOps σ D Ω) (delta : Bool) (scores thresh update)
    (stop : Option ℤ) (S : SPState σ D) (ω : ℕ → Ω) (n : ℕ) : ∃ xs : List (Sample D),
      (drain (propProc T delta scores thresh update) S.made ω n (mkSampler S stop)).2.1 =
        xs.map .sample ∧
      Spec.Proposed T delta update.isSome none ω xs :=
  proposed_of_live T delta scores thresh update stop S.made n _ ω none none 0 rfl
    (live_mkSampler S stop)

theorem Spec.Proposed.fresh {T : PropOps σ D Ω} {upd : Bool} {xs : List (Sample D)} :
    ∀ {pos : Option D} {ω : ℕ → Ω}, Spec.Proposed T false upd pos ω xs →
    ∀ k x, xs[k]? = some x → ∃ prop val st, (T.proposeArg (ω k) st).2 = .ok prop ∧
      T.call prop (ω k) = .ok val ∧ x.q = some prop ∧ x.p = some val := by
  induction xs with
  | nil => intro _ _ _ k x hx; simp at hx
  | cons y ys ih =>
      intro pos ω h k x hx
      rcases h with _ | ⟨_, _, _, _, prop, val, st, h1, h2, h3, h4, -, -, -, -, h5⟩
      rcases k with _ | k
      · obtain rfl : y = x := by simpa using hx
        refine ⟨prop, val, st, ?_, h2, h3, h4⟩
        rw [← h1]; unfold Spec.proposal; rcases pos with _ | d <;> rfl
      · exact ih h5 k x (by simpa using hx)

/-- C59: without transition and delta, and without state of the process, the k-th
proposal and its probability are functions of the k-th random outcome alone: they
do not depend on earlier samples, scores, thresholds or verdicts. -/
theorem C59_fresh (T : PropOps Unit D Ω) (scores thresh update)
    (stop : Option ℤ) (S : SPState Unit D) (ω : ℕ → Ω) (n : ℕ) : ∃ xs : List (Sample D),
      (drain (propProc T false scores thresh update) S.made ω n (mkSampler S stop)).2.1 =
        xs.map .sample ∧
      ∀ k x, xs[k]? = some x → ∃ prop val, (T.proposeArg (ω k) ()).2 = .ok prop ∧
        T.call prop (ω k) = .ok val ∧ x.q = some prop ∧ x.p = some val := by
  obtain ⟨xs, h1, h2⟩ := C59_proposed_partial T false scores thresh update stop S ω n
  refine ⟨xs, h1, fun k x hx => ?_⟩
  obtain ⟨prop, val, _, h⟩ := h2.fresh k x hx
  exact ⟨prop, val, h⟩

/-- A concrete process for the examples: proposals are the random outcomes (added to
the last one with a delta), values are the proposals; non-negative ones are
accepted. -/
def DemoProp.ops : PropOps Unit ℤ ℤ :=
  ⟨fun ω st => (st, .ok ω), fun d ω st => (st, .ok (d + ω)), fun d _ => .ok d⟩

/-- ... and its process. -/
noncomputable def DemoProp.proc (delta : Bool) : Proc Unit ℤ ℤ :=
  propProc DemoProp.ops delta (some fun x => .ok (x.p.map fun (z : ℤ) => (z : ℝ))) none
    (some fun s _ => .ok (if 0 ≤ s.getD 0 then some true else none))

/-- The demo process with outcomes 5, -1, -1: with a delta the second sample
proposes 4 and the third 3, without a delta both propose -1 and are rejected. -/
theorem demoProp_run (delta : Bool) :
    (drain (DemoProp.proc delta) 0 (fun k => if k = 0 then 5 else -1) 3
      (mkSampler (SPState.init ℤ ()) none)).2.1 =
    if delta then
      [.sample ⟨none, some 5, some 5, none, some 5, none, some true, some 5⟩,
       .sample ⟨none, some 4, some 4, none, some 4, none, some true, some 4⟩,
       .sample ⟨none, some 3, some 3, none, some 3, none, some true, some 3⟩]
    else
      [.sample ⟨none, some 5, some 5, none, some 5, none, some true, some 5⟩,
       .sample ⟨none, some (-1), some (-1), none, some (-1), none, none, none⟩,
       .sample ⟨none, some (-1), some (-1), none, some (-1), none, none, none⟩] := by
  have h0 : ¬ (0 : ℝ) ≤ -1 := by norm_num
  cases delta <;>
  simp [drain, genNext, genAdvance, mkSampler, SPState.init, spNext, getSampler, nextCore,
    DemoProp.proc, propProc, sampleProp, DemoProp.ops, judge, evalScores, evalUpdate, bind,
    Except.bind, pure, Except.pure, h0]

/-- C59 fails: a rejected sample has no verdict at all. -/
theorem C59_claim_fails : ¬ C59_claim := by
  intro h
  obtain ⟨xs, h1, -, h2⟩ := h Unit ℤ ℤ DemoProp.ops false
    (some fun x => .ok (x.p.map fun (z : ℤ) => (z : ℝ))) none
    (some fun s _ => .ok (if 0 ≤ s.getD 0 then some true else none)) none (SPState.init ℤ ())
    (fun k => if k = 0 then 5 else -1) 3
  have h3 := demoProp_run false
  simp only [DemoProp.proc, Bool.false_eq_true, if_false] at h3
  have h4 : (SPState.init ℤ ()).made = 0 := rfl
  rw [h4, h3] at h1
  rcases xs with _ | ⟨a, _ | ⟨b, _ | ⟨c, _ | _⟩⟩⟩ <;> simp at h1
  obtain ⟨rfl, rfl, rfl⟩ := h1
  have := h2 0 _ _ rfl rfl (by simp [Spec.Accepted])
  simp at this

/-! ### C38: resetting a whole process -/

/-- C38: after a reset of the whole process no sampler can be looked up, and the
next sampler created is number 0, uncounted and without last state; samplers
created before keep their own counters and last states. -/
theorem C38_reset_all (S : SPState σ D) (stop : Option ℤ) :
    (∀ i, getSampler (resetAll S) i = .error .index) ∧
    getSampler (mkSampler (resetAll S) stop) 0 = .ok S.made ∧
    (∀ i, 0 < i → getSampler (mkSampler (resetAll S) stop) i = .error .index) ∧
    (mkSampler (resetAll S) stop).counter S.made = 0 ∧
    (mkSampler (resetAll S) stop).last S.made = some none ∧
    (∀ g, (resetAll S).counter g = S.counter g ∧ (resetAll S).last g = S.last g) := by
  refine ⟨fun i => by simp [getSampler, resetAll], by simp [getSampler, mkSampler, resetAll], ?_,
    by simp [mkSampler, resetAll], by simp [mkSampler, resetAll], fun g => ⟨rfl, rfl⟩⟩
  intro i hi
  obtain ⟨j, rfl⟩ : ∃ j, i = j + 1 := ⟨i - 1, by omega⟩
  simp [getSampler, mkSampler, resetAll]

end Probayes
