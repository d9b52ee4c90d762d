/-
Properties C34, C37, C38 and C39: samplers of a stochastic process.
-/
import Verif.Lemmas.SP

namespace Probayes

variable {σ D Ω : Type}

/-! ### C34 a chain moves only by accepted proposals -/

/-- A process with a transition (set_tran), scores, threshold and update. -/
def tranProc (T : TranOps σ D Ω) (scores : Option (OPQR D → Py (Option ℝ)))
    (thresh : Option (Ω → ℝ)) (update : Option (Option ℝ → Option ℝ → Py (Option Bool))) :
    Proc σ D Ω :=
  ⟨none, sampleTran T, false, scores, thresh, update⟩

/-- Specification: whether a sample counts as accepted (the update verdict is
`True`, or no update rule is set). -/
def Spec.Accepted (hasUpdate : Bool) (x : Sample D) : Prop :=
  hasUpdate = false ∨ x.u = some true

/-- Specification of a Metropolis-like chain, given the state `pos` (the accepted
proposal) and value `cur` (its probability distribution) before the samples:
each sample proposes from `pos`, reports `cur` as predecessor, and its verdict is
the proposed value if accepted (then the chain moves) and `cur` otherwise (then
the chain stays where it was). -/
inductive Spec.Chain (T : TranOps σ D Ω) (hasUpdate : Bool) :
    D → D → List (Sample D) → Prop
  | nil (pos cur) : Spec.Chain T hasUpdate pos cur []
  | accept (pos cur : D) (x : Sample D) (xs) (prop val : D) (ω : Ω) (st : σ) :
      (T.stepFrom pos ω st).2 = .ok prop → T.call prop ω = .ok val →
      x.q = some prop → x.p = some val → x.o = some cur →
      Spec.Accepted hasUpdate x → x.v = some val →
      Spec.Chain T hasUpdate prop val xs → Spec.Chain T hasUpdate pos cur (x :: xs)
  | reject (pos cur : D) (x : Sample D) (xs) (prop val : D) (ω : Ω) (st : σ) :
      (T.stepFrom pos ω st).2 = .ok prop → T.call prop ω = .ok val →
      x.q = some prop → x.p = some val → x.o = some cur →
      ¬ Spec.Accepted hasUpdate x → x.v = some cur →
      Spec.Chain T hasUpdate pos cur xs → Spec.Chain T hasUpdate pos cur (x :: xs)

theorem sampleFinish_ok (T : TranOps σ D Ω) (orig : Option D) (prop : D) (ω : Ω) (x : OPQR D)
    (h : sampleFinish T orig prop ω = .ok x) :
    x.o = orig ∧ x.q = some prop ∧ ∃ val, T.call prop ω = .ok val ∧ x.p = some val := by
  unfold sampleFinish at h
  rcases hr : T.reval with _ | f <;> rw [hr] at h
  · rcases hc : T.call prop ω with e | val <;>
      simp [hc, bind, Except.bind, pure, Except.pure] at h
    subst h; exact ⟨rfl, rfl, val, rfl, rfl⟩
  · rcases hf : f prop with e | v <;> simp [hf, bind, Except.bind, pure, Except.pure] at h
    rcases hc : T.call prop ω with e | val <;>
      simp [hc, bind, Except.bind, pure, Except.pure] at h
    subst h; exact ⟨rfl, rfl, val, rfl, rfl⟩

theorem judge_ok (P : Proc σ D Ω) (last : Option (OPQR D)) (x : OPQR D) (ω : Ω)
    (l : Option (OPQR D)) (y : Sample D) (h : judge P last x ω = .ok (l, y)) :
    y.o = x.o ∧ y.p = x.p ∧ y.q = x.q ∧ y.r = x.r ∧
    ((P.update = none ∨ last = none ∨ y.u = some true) ∧ l = some x ∧ y.v = x.p ∨
     ¬ (P.update = none ∨ last = none ∨ y.u = some true) ∧ l = last ∧ y.v = x.o) := by
  unfold judge at h
  rcases hs : evalScores P.scores x with e | s
  · rw [hs] at h; simp [bind, Except.bind] at h
  rw [hs] at h
  simp only [bind, Except.bind, pure, Except.pure] at h
  split at h
  · simp at h
  · rename_i u hu
    split at h
    · rename_i hc
      simp only [Except.ok.injEq, Prod.mk.injEq] at h
      obtain ⟨rfl, rfl⟩ := h
      refine ⟨rfl, rfl, rfl, rfl, Or.inl ⟨?_, rfl, rfl⟩⟩
      simpa [or_assoc] using hc
    · rename_i hc
      simp only [Except.ok.injEq, Prod.mk.injEq] at h
      obtain ⟨rfl, rfl⟩ := h
      refine ⟨rfl, rfl, rfl, rfl, Or.inr ⟨?_, rfl, rfl⟩⟩
      simpa [or_assoc] using hc

theorem nextCore_first (T : TranOps σ D Ω) (scores thresh update) (ω : Ω) (st : σ) (x : Out D)
    (h : (nextCore (tranProc T scores thresh update) none ω st).2.2 = .ok x) :
    ∃ (y : Sample D) (l : OPQR D) (prop val : D), x = .sample y ∧
      (nextCore (tranProc T scores thresh update) none ω st).2.1 = some l ∧
      (T.stepArg ω st).2 = .ok prop ∧ T.call prop ω = .ok val ∧
      y.o = none ∧ y.q = some prop ∧ y.p = some val ∧ y.v = some val ∧
      l.q = some prop ∧ l.p = some val := by
  simp only [nextCore, tranProc, sampleTran] at h ⊢
  rcases hst : T.stepArg ω st with ⟨st', e | prop⟩ <;> simp only [hst] at h ⊢
  · simp at h
  rcases hfin : sampleFinish T none prop ω with e | z <;> simp only [hfin] at h ⊢
  · simp at h
  obtain ⟨h1, h2, val, h3, h4⟩ := sampleFinish_ok _ _ _ _ _ hfin
  rcases hj : judge ⟨none, sampleTran T, false, scores, thresh, update⟩ none z ω with e | ⟨l, y⟩ <;>
    simp only [Bool.false_eq_true, if_false, hj] at h ⊢
  · simp at h
  obtain ⟨j1, j2, j3, j4, hv⟩ := judge_ok _ _ _ _ _ _ hj
  simp at hv
  obtain ⟨rfl, hv⟩ := hv
  refine ⟨y, z, prop, val, ?_, rfl, rfl, h3, ?_⟩
  · simpa using h.symm
  · simp_all

theorem nextCore_later (T : TranOps σ D Ω) (scores thresh update) (l0 : OPQR D) (pos cur : D)
    (hq : l0.q = some pos) (hp : l0.p = some cur) (ω : Ω) (st : σ) (x : Out D)
    (h : (nextCore (tranProc T scores thresh update) (some l0) ω st).2.2 = .ok x) :
    ∃ (y : Sample D) (l : OPQR D) (prop val : D), x = .sample y ∧
      (nextCore (tranProc T scores thresh update) (some l0) ω st).2.1 = some l ∧
      (T.stepFrom pos ω st).2 = .ok prop ∧ T.call prop ω = .ok val ∧
      y.o = some cur ∧ y.q = some prop ∧ y.p = some val ∧
      (Spec.Accepted update.isSome y ∧ y.v = some val ∧ l.q = some prop ∧ l.p = some val ∨
       ¬ Spec.Accepted update.isSome y ∧ y.v = some cur ∧ l.q = some pos ∧ l.p = some cur) := by
  simp only [nextCore, tranProc, sampleTran] at h ⊢
  simp only [hq, Bool.false_eq_true, if_false] at h ⊢
  rcases hst : T.stepFrom pos ω st with ⟨st', e | prop⟩ <;> simp only [hst] at h ⊢
  · simp at h
  rcases hfin : sampleFinish T l0.p prop ω with e | z <;> simp only [hfin] at h ⊢
  · simp at h
  obtain ⟨h1, h2, val, h3, h4⟩ := sampleFinish_ok _ _ _ _ _ hfin
  rcases hj : judge ⟨none, sampleTran T, false, scores, thresh, update⟩ (some l0) z ω
    with e | ⟨l, y⟩ <;> simp only [hj] at h ⊢
  · simp at h
  obtain ⟨j1, j2, j3, j4, hv⟩ := judge_ok _ _ _ _ _ _ hj
  simp only [reduceCtorEq, false_or] at hv
  have hy : x = .sample y := by simpa using h.symm
  rcases hv with ⟨ha, rfl, hv⟩ | ⟨ha, rfl, hv⟩
  · refine ⟨y, z, prop, val, hy, rfl, rfl, h3, by simp_all, by simp_all, by simp_all, Or.inl ?_⟩
    refine ⟨?_, by simp_all, by simp_all, by simp_all⟩
    simpa [Spec.Accepted] using ha
  · refine ⟨y, l0, prop, val, hy, rfl, rfl, h3, by simp_all, by simp_all, by simp_all, Or.inr ?_⟩
    refine ⟨?_, by simp_all, hq, hp⟩
    simpa [Spec.Accepted] using ha

theorem chain_of_live (T : TranOps σ D Ω) (scores thresh update) (stop : Option ℤ) (g n : ℕ) :
    ∀ (S : SPState σ D) (ω : ℕ → Ω) (l0 : OPQR D) (pos cur : D) (c : ℕ),
      l0.q = some pos → l0.p = some cur → Live S g stop (some l0) c →
      ∃ xs : List (Sample D),
        (drain (tranProc T scores thresh update) g ω n S).2.1 = xs.map .sample ∧
        Spec.Chain T update.isSome pos cur xs := by
  induction n with
  | zero => intro S ω l0 pos cur c _ _ _; exact ⟨[], rfl, .nil _ _⟩
  | succ n ih =>
    intro S ω l0 pos cur c hq hp hlive
    by_cases hc : ∀ m, stop = some m → (c : ℤ) < m
    · rcases hx : (nextCore (tranProc T scores thresh update) (some l0) (ω 0) S.st).2.2 with e | x
      · have := genNext_error _ S g stop _ c (ω 0) hlive hc e hx
        refine ⟨[], ?_, .nil _ _⟩
        rcases hg : genNext (tranProc T scores thresh update) S g (ω 0) with ⟨S', r⟩
        rw [hg] at this; simp only at this; subst this
        simp [drain, hg]
      · obtain ⟨S', hS', hl', _, _⟩ := genNext_live _ S g stop _ c (ω 0) hlive hc x hx
        obtain ⟨y, l, prop, val, rfl, hl, hstep, hcall, ho, hq', hp', hv⟩ :=
          nextCore_later T scores thresh update l0 pos cur hq hp (ω 0) S.st x hx
        rw [hl] at hl'
        rcases hv with ⟨ha, hv, hlq, hlp⟩ | ⟨ha, hv, hlq, hlp⟩
        · obtain ⟨xs, hxs, hch⟩ := ih S' (fun k => ω (k+1)) l prop val (c+1) hlq hlp hl'
          refine ⟨y :: xs, by simp [drain, hS', hxs], ?_⟩
          exact .accept _ _ _ _ prop val (ω 0) S.st hstep hcall hq' hp' ho ha hv hch
        · obtain ⟨xs, hxs, hch⟩ := ih S' (fun k => ω (k+1)) l pos cur (c+1) hlq hlp hl'
          refine ⟨y :: xs, by simp [drain, hS', hxs], ?_⟩
          exact .reject _ _ _ _ prop val (ω 0) S.st hstep hcall hq' hp' ho ha hv hch
    · push Not at hc
      obtain ⟨m, rfl, hm⟩ := hc
      exact ⟨[], by simp [drain, genNext_stop _ S g m _ c (ω 0) hlive hm], .nil _ _⟩

/-- C34: everything a new sampler of a process with a transition ever yields,
for any scores, thresholds, update rule, stop count and random outcomes, and for
any number of draws: the first sample's verdict is its own value (it is always
taken), and the following samples form a chain started there. -/
theorem C34_chain (T : TranOps σ D Ω) (scores thresh update) (stop : Option ℤ)
    (S : SPState σ D) (ω : ℕ → Ω) (n : ℕ) :
    ∃ xs : List (Sample D),
      (drain (tranProc T scores thresh update) S.made ω n (mkSampler S stop)).2.1
        = xs.map .sample ∧
      (xs = [] ∨ ∃ x xs' prop val, xs = x :: xs' ∧ x.q = some prop ∧
        T.call prop (ω 0) = .ok val ∧ x.p = some val ∧ x.v = some val ∧
        Spec.Chain T update.isSome prop val xs') := by
  have hlive := live_mkSampler S stop (D := D)
  generalize mkSampler S stop = S0 at hlive ⊢
  rcases n with _ | n
  · exact ⟨[], rfl, Or.inl rfl⟩
  by_cases hc : ∀ m, stop = some m → ((0 : ℕ) : ℤ) < m
  · rcases hx : (nextCore (tranProc T scores thresh update) none (ω 0) S0.st).2.2 with e | x
    · have := genNext_error _ S0 S.made stop _ 0 (ω 0) hlive hc e hx
      refine ⟨[], ?_, Or.inl rfl⟩
      rcases hg : genNext (tranProc T scores thresh update) S0 S.made (ω 0) with ⟨S', r⟩
      rw [hg] at this; simp only at this; subst this
      simp [drain, hg]
    · obtain ⟨S', hS', hl', _, _⟩ := genNext_live _ S0 S.made stop _ 0 (ω 0) hlive hc x hx
      obtain ⟨y, l, prop, val, rfl, hl, hstep, hcall, ho, hq', hp', hv, hlq, hlp⟩ :=
        nextCore_first T scores thresh update (ω 0) S0.st x hx
      rw [hl] at hl'
      obtain ⟨xs, hxs, hch⟩ := chain_of_live T scores thresh update stop S.made n S'
        (fun k => ω (k+1)) l prop val 1 hlq hlp hl'
      exact ⟨y :: xs, by simp [drain, hS', hxs],
        Or.inr ⟨y, xs, prop, val, rfl, hq', hcall, hp', hv, hch⟩⟩
  · push Not at hc
    obtain ⟨m, rfl, hm⟩ := hc
    exact ⟨[], by simp [drain, genNext_stop _ S0 S.made m _ 0 (ω 0) hlive hm], Or.inl rfl⟩

/-- A concrete process for the examples: states are integers, each step adds the
random outcome, values are the states. -/
def Demo.ops : TranOps Unit ℤ ℤ :=
  ⟨fun ω st => (st, .ok ω), fun d ω st => (st, .ok (d + ω)), none, fun d _ => .ok d⟩

/-- ... accepting non-negative states only. -/
noncomputable def Demo.proc : Proc Unit ℤ ℤ :=
  tranProc Demo.ops (some fun x => .ok (x.p.map fun (z : ℤ) => (z : ℝ))) none
    (some fun s _ => .ok (if 0 ≤ s.getD 0 then some true else none))

/-- C34 is not about empty runs: the demo process yields samples. -/
example : ((drain Demo.proc 0 (fun _ => 5) 1 (mkSampler (SPState.init ℤ ()) none)).2.1).length = 1 :=
  by simp [drain, genNext, genAdvance, mkSampler, SPState.init, spNext, getSampler, nextCore, Demo.proc,
    tranProc, sampleTran, Demo.ops, sampleFinish, judge, evalScores, evalUpdate, bind, Except.bind,
    pure, Except.pure]

/-! ### C37 stop counts -/

/-- The process never raises. -/
def Spec.NeverRaises (P : Proc σ D Ω) : Prop :=
  ∀ l ω st, ∃ x, (nextCore P l ω st).2.2 = .ok x

theorem drain_bounded (P : Proc σ D Ω) (hP : Spec.NeverRaises P) (g : ℕ) (n : ℕ) (k : ℕ) :
    ∀ (S : SPState σ D) (ω : ℕ → Ω) (l : Option (OPQR D)) (c : ℕ),
      Live S g (some (n : ℤ)) l c → c ≤ n →
      ∃ S' xs, drain P g ω (n - c + 1 + k) S = (S', xs, some .stopIteration) ∧
        xs.length = n - c ∧ S'.counter g = 0 ∧ S'.last g = some none := by
  suffices ∀ (m : ℕ) (S : SPState σ D) (ω : ℕ → Ω) (l : Option (OPQR D)) (c : ℕ),
      Live S g (some (n : ℤ)) l c → c + m = n →
      ∃ S' xs, drain P g ω (m + 1 + k) S = (S', xs, some .stopIteration) ∧
        xs.length = m ∧ S'.counter g = 0 ∧ S'.last g = some none from
    fun S ω l c hl hc => this (n - c) S ω l c hl (by omega)
  intro m
  induction m with
  | zero =>
    intro S ω l c hl hc
    rw [show 0 + 1 + k = k + 1 by omega]
    refine ⟨(resetGen S g).finish g, [], ?_, rfl, ?_, ?_⟩
    · simp [drain, genNext_stop P S g n l c (ω 0) hl (by exact_mod_cast hc.ge)]
    · simp [resetGen, SPState.finish]
    · simp [resetGen, SPState.finish]
  | succ m ih =>
    intro S ω l c hl hc
    obtain ⟨x, hx⟩ := hP l (ω 0) S.st
    obtain ⟨S', hS', hl', _, _⟩ := genNext_live P S g _ l c (ω 0) hl
      (fun n' h => by
        have : (n : ℤ) = n' := Option.some.inj h
        rw [← this]; exact_mod_cast (by omega : c < n)) x hx
    obtain ⟨S'', xs, hd, hlen, h1, h2⟩ := ih S' (fun i => ω (i+1)) _ (c+1) hl' (by omega)
    refine ⟨S'', x :: xs, ?_, by simp [hlen], h1, h2⟩
    rw [show m + 1 + 1 + k = (m + 1 + k) + 1 by omega]
    simp [drain, hS', hd]

/-- C37: a sampler created with `stop=n` yields exactly `n` samples and then ends
(however often it is asked), with its counter and last state reset. -/
theorem C37_stop_exact (P : Proc σ D Ω) (hP : Spec.NeverRaises P) (S : SPState σ D) (n k : ℕ)
    (ω : ℕ → Ω) :
    ∃ S' xs, drain P S.made ω (n + 1 + k) (mkSampler S (some n)) = (S', xs, some .stopIteration) ∧
      xs.length = n ∧ S'.counter S.made = 0 ∧ S'.last S.made = some none := by
  simpa using drain_bounded P hP S.made n k _ ω none 0 (live_mkSampler S (some (n : ℤ)))
    (Nat.zero_le _)

/-- C37: before the count is reached nothing ends: the first `m ≤ n` draws of a
sampler with `stop=n`, and any number of draws of a sampler without stop, yield a
sample each and are counted. -/
theorem C37_no_early_end (P : Proc σ D Ω) (hP : Spec.NeverRaises P) (S : SPState σ D)
    (stop : Option ℤ) (m : ℕ) (hm : ∀ n, stop = some n → (m : ℤ) ≤ n) (ω : ℕ → Ω) :
    ∃ S' xs, drain P S.made ω m (mkSampler S stop) = (S', xs, none) ∧
      xs.length = m ∧ S'.counter S.made = m := by
  suffices ∀ (k : ℕ) (S : SPState σ D) (g : ℕ) (ω : ℕ → Ω) (l : Option (OPQR D)) (c : ℕ),
      Live S g stop l c → (∀ n, stop = some n → ((c + k : ℕ) : ℤ) ≤ n) →
      ∃ S' xs, drain P g ω k S = (S', xs, none) ∧ xs.length = k ∧ S'.counter g = c + k by
    simpa using this m _ S.made ω none 0 (live_mkSampler S stop) (by simpa using hm)
  intro k
  induction k with
  | zero => intro S g ω l c hl _; exact ⟨S, [], rfl, rfl, by simpa using hl.counter⟩
  | succ k ih =>
    intro S g ω l c hl hk
    obtain ⟨x, hx⟩ := hP l (ω 0) S.st
    obtain ⟨S', hS', hl', _, _⟩ := genNext_live P S g stop l c (ω 0) hl
      (fun n h => by have := hk n h; push_cast at this; omega) x hx
    obtain ⟨S'', xs, hd, hlen, hc⟩ := ih S' g (fun i => ω (i+1)) _ (c+1) hl'
      (fun n h => by have := hk n h; push_cast at this ⊢; omega)
    exact ⟨S'', x :: xs, by simp [drain, hS', hd], by simp [hlen], by omega⟩

theorem walk_live (P : Proc σ D Ω) (hP : Spec.NeverRaises P) (g n : ℕ) :
    ∀ (m : ℕ) (S : SPState σ D) (ω : ℕ → Ω) (l : Option (OPQR D)) (c : ℕ) (steps : List (Out D))
      (k : ℕ), Live S g none l c → steps.length + m = n →
      ∃ S' xs, walk P g ω n (m + 1 + k) steps S = (S', .ok xs) ∧ xs.length = n ∧
        S'.counter g = c + m + 1 := by
  intro m
  induction m with
  | zero =>
    intro S ω l c steps k hl hs
    obtain ⟨x, hx⟩ := hP l (ω 0) S.st
    obtain ⟨S', hS', hl', _, _⟩ := genNext_live P S g none l c (ω 0) hl (by simp) x hx
    refine ⟨S', steps, ?_, by omega, by rw [hl'.counter]⟩
    rw [show 0 + 1 + k = k + 1 by omega]
    simp [walk, hS', show n ≤ steps.length by omega]
  | succ m ih =>
    intro S ω l c steps k hl hs
    obtain ⟨x, hx⟩ := hP l (ω 0) S.st
    obtain ⟨S', hS', hl', _, _⟩ := genNext_live P S g none l c (ω 0) hl (by simp) x hx
    obtain ⟨S'', xs, hw, hlen, hc⟩ := ih S' (fun i => ω (i+1)) _ (c+1) (steps ++ [x]) k hl'
      (by simp; omega)
    refine ⟨S'', xs, ?_, hlen, by omega⟩
    rw [show m + 1 + 1 + k = (m + 1 + k) + 1 by omega]
    simp [walk, hS', show ¬ n ≤ steps.length by omega, hw]

/-- C37 for `walk(sampler, stop=n)` on a sampler without its own stop: exactly `n`
samples are recorded, but `n + 1` are taken from the process. -/
theorem C37_walk_partial (P : Proc σ D Ω) (hP : Spec.NeverRaises P) (S : SPState σ D) (n k : ℕ)
    (ω : ℕ → Ω) :
    ∃ S' xs, walk P S.made ω n (n + 1 + k) [] (mkSampler S none) = (S', .ok xs) ∧
      xs.length = n ∧ S'.counter S.made = n + 1 := by
  simpa using walk_live P hP S.made n n _ ω none 0 [] k (live_mkSampler S none) (by simp)

/-- C37 full claim for `walk`: it takes from the process exactly the samples it
records. -/
def C37_walk_claim : Prop :=
  ∀ (P : Proc Unit ℤ ℤ), Spec.NeverRaises P → ∀ (S S' : SPState Unit ℤ) (n k : ℕ) (ω : ℕ → ℤ) xs,
    walk P S.made ω n (n + 1 + k) [] (mkSampler S none) = (S', .ok xs) → xs.length = n →
    S'.counter S.made = n

/-- A process without proposal that always returns the random outcome. -/
def Demo.plain : Proc Unit ℤ ℤ :=
  ⟨some fun ω st => (st, .ok ω), fun _ _ st => (st, .error .type), false, none, none, none⟩

theorem Demo.plain_never_raises : Spec.NeverRaises Demo.plain :=
  fun _ ω _ => ⟨.plain ω, rfl⟩

/-- C37 fails for `walk`: the loop draws one more sample before it breaks. -/
theorem C37_walk_claim_fails : ¬ C37_walk_claim := by
  intro h
  obtain ⟨S', xs, hw, hl, hc⟩ := C37_walk_partial Demo.plain Demo.plain_never_raises
    (SPState.init ℤ ()) 3 0 (fun _ => 0)
  have := h Demo.plain Demo.plain_never_raises _ S' 3 0 _ xs hw hl
  omega

/-! ### C38 samplers do not interfere -/

/-- What a user can do with the samplers of one process. -/
inductive SPOp (Ω : Type) where
  | create (stop : Option ℤ)
  | draw (g : ℕ) (ω : Ω)
  | reset (i : ℕ)
  | resetAll

/-- Performing an operation; draws also give their result. -/
def SPOp.run (P : Proc σ D Ω) (S : SPState σ D) : SPOp Ω → SPState σ D × Option (Py (Out D))
  | .create stop => (mkSampler S stop, none)
  | .draw g ω => ((genNext P S g ω).1, some (genNext P S g ω).2)
  | .reset i =>
      match getSampler S i with
      | .ok g => (resetGen S g, none)
      | .error _ => (S, none)
  | .resetAll => (Probayes.resetAll S, none)

/-- Performing a list of operations; the results of all draws from `g`. -/
def runOps (P : Proc σ D Ω) (g : ℕ) : List (SPOp Ω) → SPState σ D → SPState σ D × List (Py (Out D))
  | [], S => (S, [])
  | op :: ops, S =>
      let r := op.run P S
      let rs := runOps P g ops r.1
      (rs.1, (match op, r.2 with
        | .draw h _, some x => if h = g then [x] else []
        | _, _ => []) ++ rs.2)

/-- Does the operation concern sampler `g`?  (Ids coincide with creation order
as long as the process is not reset as a whole.) -/
def SPOp.about (g : ℕ) : SPOp Ω → Bool
  | .draw h _ => h = g
  | .reset i => i = g
  | _ => false

/-- C38 full claim: the results, counter and last state of a sampler after any
operations are those obtained by performing only the operations on that sampler. -/
def C38_claim : Prop :=
  ∀ (σ D Ω : Type) (P : Proc σ D Ω) (st : σ) (pre ops : List (SPOp Ω)) (g : ℕ),
    let S := (runOps P g pre (SPState.init D st)).1
    g < S.made →
    (runOps P g ops S).2 = (runOps P g (ops.filter (SPOp.about g)) S).2 ∧
    (runOps P g ops S).1.counter g = (runOps P g (ops.filter (SPOp.about g)) S).1.counter g ∧
    (runOps P g ops S).1.last g = (runOps P g (ops.filter (SPOp.about g)) S).1.last g

/-- Ids are creation numbers. -/
structure SPState.Tidy (S : SPState σ D) : Prop where
  samplers : S.samplers = List.range S.made
  ids : ∀ g, g < S.made → (S.gens g).samplerId = g
  unmade : ∀ g, S.made ≤ g → (S.gens g).done = true

theorem getSampler_tidy (S : SPState σ D) (h : S.Tidy) (i : ℕ) :
    getSampler S i = if i < S.made then .ok i else .error .index := by
  unfold getSampler
  rw [h.samplers]
  by_cases hi : i < S.made <;> simp [hi]

/-- Two tidy states agree on a sampler. -/
structure Agree (S S' : SPState Unit D) (g : ℕ) : Prop where
  tidy : S.Tidy
  tidy' : S'.Tidy
  lt : g < S.made
  lt' : g < S'.made
  gens : S.gens g = S'.gens g
  counter : S.counter g = S'.counter g
  last : S.last g = S'.last g

theorem finish_tidy (S : SPState Unit D) (g : ℕ) (h : S.Tidy) : (S.finish g).Tidy := by
  refine ⟨h.samplers, fun k hk => ?_, fun k hk => ?_⟩
  · by_cases hkg : k = g
    · subst hkg; simpa [SPState.finish] using h.ids k hk
    · simpa [SPState.finish, hkg] using h.ids k hk
  · by_cases hkg : k = g
    · subst hkg; simp [SPState.finish]
    · simpa [SPState.finish, hkg] using h.unmade k hk

theorem others_finish (S : SPState Unit D) (g : ℕ) : Others S (S.finish g) g :=
  ⟨rfl, rfl, fun h hh => by simp [SPState.finish, hh], fun _ _ => rfl, fun _ _ => rfl⟩

theorem Others.trans {S S' S'' : SPState σ D} {g : ℕ} (h : Others S S' g) (h' : Others S' S'' g) :
    Others S S'' g :=
  ⟨h'.samplers.trans h.samplers, h'.made.trans h.made,
    fun k hk => (h'.gens k hk).trans (h.gens k hk), fun k hk => (h'.last k hk).trans (h.last k hk),
    fun k hk => (h'.counter k hk).trans (h.counter k hk)⟩

theorem spNext_agree (P : Proc Unit D Ω) (S S' : SPState Unit D) (g : ℕ) (ω : Ω)
    (h : Agree S S' g) :
    (spNext P S g ω).2 = (spNext P S' g ω).2 ∧
      Agree (spNext P S g ω).1 (spNext P S' g ω).1 g := by
  obtain ⟨ht, ht', hlt, hlt', hg, hc, hl⟩ := h
  unfold spNext
  rw [getSampler_tidy S ht, getSampler_tidy S' ht', if_pos hlt, if_pos hlt']
  simp only [hl]
  rcases S'.last g with _ | l
  · exact ⟨rfl, ⟨ht.1, ht.2, ht.3⟩, ⟨ht'.1, ht'.2, ht'.3⟩, hlt, hlt', hg, by simp [hc], hl⟩
  · exact ⟨rfl, ⟨ht.1, ht.2, ht.3⟩, ⟨ht'.1, ht'.2, ht'.3⟩, hlt, hlt', hg, by simp [hc], by simp⟩

theorem finish_agree (S S' : SPState Unit D) (g : ℕ) (h : Agree S S' g) :
    Agree (S.finish g) (S'.finish g) g :=
  ⟨finish_tidy _ _ h.tidy, finish_tidy _ _ h.tidy', h.lt, h.lt',
    by simp [SPState.finish, h.gens], h.counter, h.last⟩

theorem resetGen_agree (S S' : SPState Unit D) (g : ℕ) (h : Agree S S' g) :
    Agree (resetGen S g) (resetGen S' g) g :=
  ⟨⟨h.tidy.1, h.tidy.2, h.tidy.3⟩, ⟨h.tidy'.1, h.tidy'.2, h.tidy'.3⟩, h.lt, h.lt', h.gens,
    by simp [resetGen], by simp [resetGen]⟩

/-- The part of `genNext` that goes on to the next sample. -/
theorem go_agree (P : Proc Unit D Ω) (S S' : SPState Unit D) (g : ℕ) (ω : Ω)
    (h : Agree S S' g) :
    (genAdvance P S g g ω).2 = (genAdvance P S' g g ω).2 ∧
      Agree (genAdvance P S g g ω).1 (genAdvance P S' g g ω).1 g := by
  unfold genAdvance
  obtain ⟨h1, h2⟩ := spNext_agree P S S' g ω h
  rcases hs : spNext P S g ω with ⟨T, r⟩
  rcases hs' : spNext P S' g ω with ⟨T', r'⟩
  rw [hs, hs'] at h1 h2
  simp only at h1 h2
  subst h1
  rcases r with e | x
  · exact ⟨rfl, finish_agree _ _ _ h2⟩
  · exact ⟨rfl, h2⟩

theorem genNext_agree (P : Proc Unit D Ω) (S S' : SPState Unit D) (g : ℕ) (ω : Ω)
    (h : Agree S S' g) :
    (genNext P S g ω).2 = (genNext P S' g ω).2 ∧
      Agree (genNext P S g ω).1 (genNext P S' g ω).1 g := by
  have hid : (S'.gens g).samplerId = g := h.tidy'.ids g h.lt'
  unfold genNext
  simp only [h.gens]
  split
  · exact ⟨rfl, h⟩
  · rw [hid]
    rcases (S'.gens g).stop with _ | n
    · exact go_agree P S S' g ω h
    · simp only [getSampler_tidy S h.tidy, getSampler_tidy S' h.tidy', if_pos h.lt, if_pos h.lt',
        h.counter]
      split
      · exact go_agree P S S' g ω h
      · exact ⟨rfl, finish_agree _ _ _ (resetGen_agree _ _ _ h)⟩

theorem spNext_others (P : Proc Unit D Ω) (S : SPState Unit D) (h : S.Tidy) (g : ℕ) (ω : Ω) :
    Others S (spNext P S g ω).1 g := by
  unfold spNext
  rw [getSampler_tidy S h]
  by_cases hg : g < S.made
  · simp only [if_pos hg]
    rcases S.last g with _ | l
    · exact ⟨rfl, rfl, fun _ _ => rfl, fun _ _ => rfl, fun k hk => by simp [hk]⟩
    · exact ⟨rfl, rfl, fun _ _ => rfl, fun k hk => by simp [hk], fun k hk => by simp [hk]⟩
  · simp only [if_neg hg]
    exact ⟨rfl, rfl, fun _ _ => rfl, fun _ _ => rfl, fun _ _ => rfl⟩

theorem go_others (P : Proc Unit D Ω) (S : SPState Unit D) (h : S.Tidy) (g : ℕ) (ω : Ω) :
    Others S (genAdvance P S g g ω).1 g := by
  unfold genAdvance
  have h1 := spNext_others P S h g ω
  rcases hs : spNext P S g ω with ⟨T, e | x⟩ <;> rw [hs] at h1
  · exact h1.trans (others_finish _ _)
  · exact h1

theorem genNext_others (P : Proc Unit D Ω) (S : SPState Unit D) (h : S.Tidy) (g : ℕ) (ω : Ω) :
    Others S (genNext P S g ω).1 g := by
  have hrefl : Others S S g := ⟨rfl, rfl, fun _ _ => rfl, fun _ _ => rfl, fun _ _ => rfl⟩
  unfold genNext
  simp only
  split
  · exact hrefl
  · rename_i hd
    have hg : g < S.made := by
      by_contra hc
      exact hd (h.unmade g (not_lt.mp hc))
    rw [h.ids g hg]
    rcases (S.gens g).stop with _ | n
    · exact go_others P S h g ω
    · simp only [getSampler_tidy S h, if_pos hg]
      split
      · exact go_others P S h g ω
      · exact ⟨rfl, rfl, fun k hk => by simp [SPState.finish, resetGen, hk],
          fun k hk => by simp [SPState.finish, resetGen, hk],
          fun k hk => by simp [SPState.finish, resetGen, hk]⟩

theorem genNext_tidy (P : Proc Unit D Ω) (S : SPState Unit D) (h : S.Tidy) (g : ℕ) (ω : Ω) :
    (genNext P S g ω).1.Tidy := by
  by_cases hg : g < S.made
  · exact (genNext_agree P S S g ω ⟨h, h, hg, hg, rfl, rfl, rfl⟩).2.tidy
  · have hd := h.unmade g (not_lt.mp hg)
    simpa [genNext, hd] using h

theorem run_tidy (P : Proc Unit D Ω) (S : SPState Unit D) (h : S.Tidy) (op : SPOp Ω)
    (hop : op ≠ .resetAll) : (op.run P S).1.Tidy := by
  rcases op with stop | ⟨g, ω⟩ | i | _
  · refine ⟨?_, fun k hk => ?_, fun k hk => ?_⟩
    · simp [SPOp.run, mkSampler, h.samplers, List.range_succ]
    · by_cases hkm : k = S.made
      · subst hkm; simp [SPOp.run, mkSampler, h.samplers]
      · have : k < S.made := by simp [SPOp.run, mkSampler] at hk; omega
        simpa [SPOp.run, mkSampler, hkm] using h.ids k this
    · simp only [SPOp.run, mkSampler] at hk ⊢
      rw [Function.update_of_ne (by omega)]
      exact h.unmade k (by omega)
  · exact genNext_tidy P S h g ω
  · simp only [SPOp.run, getSampler_tidy S h]
    by_cases hi : i < S.made
    · simp only [if_pos hi]; exact ⟨h.1, h.2, h.3⟩
    · simpa only [if_neg hi] using h
  · exact absurd rfl hop

theorem run_other (P : Proc Unit D Ω) (S S' : SPState Unit D) (g : ℕ) (h : Agree S S' g)
    (op : SPOp Ω) (hop : op ≠ .resetAll) (hab : op.about g = false) :
    Agree (op.run P S).1 S' g := by
  have ht := run_tidy P S h.tidy op hop
  rcases op with stop | ⟨k, ω⟩ | i | _
  · have hne : g ≠ S.made := by have := h.lt; omega
    refine ⟨ht, h.tidy', ?_, h.lt', ?_, ?_, ?_⟩
    · have := h.lt; simp [SPOp.run, mkSampler]; omega
    · simpa [SPOp.run, mkSampler, hne] using h.gens
    · simpa [SPOp.run, mkSampler, hne] using h.counter
    · simpa [SPOp.run, mkSampler, hne] using h.last
  · have hne : g ≠ k := by simp [SPOp.about] at hab; exact fun hc => hab hc.symm
    have ho := genNext_others P S h.tidy k ω
    exact ⟨ht, h.tidy', by simpa [SPOp.run, ho.made] using h.lt, h.lt',
      (ho.gens g hne).trans h.gens, (ho.counter g hne).trans h.counter,
      (ho.last g hne).trans h.last⟩
  · have hne : g ≠ i := by simp [SPOp.about] at hab; exact fun hc => hab hc.symm
    simp only [SPOp.run, getSampler_tidy S h.tidy]
    by_cases hi : i < S.made
    · simp only [if_pos hi]
      exact ⟨⟨h.tidy.1, h.tidy.2, h.tidy.3⟩, h.tidy', h.lt, h.lt', h.gens,
        by simpa [resetGen, hne] using h.counter, by simpa [resetGen, hne] using h.last⟩
    · simpa only [if_neg hi] using h
  · exact absurd rfl hop

theorem runOps_agree (P : Proc Unit D Ω) (g : ℕ) (ops : List (SPOp Ω)) :
    ∀ (S S' : SPState Unit D), Agree S S' g → .resetAll ∉ ops →
      (runOps P g ops S).2 = (runOps P g (ops.filter (SPOp.about g)) S').2 ∧
      Agree (runOps P g ops S).1 (runOps P g (ops.filter (SPOp.about g)) S').1 g := by
  induction ops with
  | nil => intro S S' h _; exact ⟨rfl, h⟩
  | cons op ops ih =>
    intro S S' h hop
    have hop1 : op ≠ .resetAll := fun hc => hop (by simp [hc])
    have hop2 : .resetAll ∉ ops := fun hc => hop (by simp [hc])
    cases hab : op.about g
    · rw [List.filter_cons_of_neg (by simp [hab])]
      obtain ⟨h1, h2⟩ := ih _ S' (run_other P S S' g h op hop1 hab) hop2
      refine ⟨?_, h2⟩
      rcases op with stop | ⟨k, ω⟩ | i | _
      · simpa [runOps, SPOp.run] using h1
      · have : k ≠ g := by simpa [SPOp.about] using hab
        simpa [runOps, SPOp.run, this] using h1
      · simpa [runOps] using h1
      · exact absurd rfl hop1
    · rw [List.filter_cons_of_pos hab]
      rcases op with stop | ⟨k, ω⟩ | i | _
      · simp [SPOp.about] at hab
      · have hk : k = g := by simpa [SPOp.about] using hab
        subst hk
        obtain ⟨e1, e2⟩ := genNext_agree P S S' k ω h
        obtain ⟨h1, h2⟩ := ih _ _ e2 hop2
        exact ⟨by simp [runOps, SPOp.run, e1, h1], h2⟩
      · have hi : i = g := by simpa [SPOp.about] using hab
        subst hi
        have : Agree ((SPOp.reset i : SPOp Ω).run P S).1 ((SPOp.reset i : SPOp Ω).run P S').1 i := by
          simp only [SPOp.run, getSampler_tidy S h.tidy, getSampler_tidy S' h.tidy', if_pos h.lt,
            if_pos h.lt']
          exact resetGen_agree _ _ _ h
        obtain ⟨h1, h2⟩ := ih _ _ this hop2
        exact ⟨by simpa [runOps] using h1, h2⟩
      · simp [SPOp.about] at hab

theorem runOps_tidy (P : Proc Unit D Ω) (g : ℕ) (ops : List (SPOp Ω)) :
    ∀ S : SPState Unit D, S.Tidy → .resetAll ∉ ops → (runOps P g ops S).1.Tidy := by
  induction ops with
  | nil => intro S h _; exact h
  | cons op ops ih =>
    intro S h hop
    exact ih _ (run_tidy P S h op (fun hc => hop (by simp [hc]))) (fun hc => hop (by simp [hc]))

/-- C38 without a reset of the whole process, for processes that keep no state of
their own between samples: whatever creations, draws and resets of other
samplers happen in between, a sampler's results, counter and last state are
those it would have had alone. -/
theorem C38_partial (P : Proc Unit D Ω) (pre ops : List (SPOp Ω)) (g : ℕ)
    (hpre : .resetAll ∉ pre) (hops : .resetAll ∉ ops) :
    let S := (runOps P g pre (SPState.init D ())).1
    g < S.made →
    (runOps P g ops S).2 = (runOps P g (ops.filter (SPOp.about g)) S).2 ∧
    (runOps P g ops S).1.counter g = (runOps P g (ops.filter (SPOp.about g)) S).1.counter g ∧
    (runOps P g ops S).1.last g = (runOps P g (ops.filter (SPOp.about g)) S).1.last g := by
  intro S hg
  have ht : S.Tidy := runOps_tidy P g pre _
    ⟨by simp [SPState.init], fun k hk => by simp [SPState.init] at hk,
      fun k _ => by simp [SPState.init]⟩ hpre
  obtain ⟨h1, h2⟩ := runOps_agree P g ops S S ⟨ht, ht, hg, hg, rfl, rfl, rfl⟩ hops
  exact ⟨h1, h2.counter, h2.last⟩

/-- C38 fails when the process is reset as a whole: an old sampler keeps its id,
which now belongs to a new sampler, and drawing from the old one advances the new
one's counter. -/
theorem C38_claim_fails_reset : ¬ C38_claim := by
  intro h
  have := (h Unit ℤ ℤ Demo.plain () [.create none, .resetAll, .create none] [.draw 0 7] 1
    (by simp [runOps, SPOp.run, mkSampler, resetAll, SPState.init])).2.1
  simp [runOps, SPOp.run, mkSampler, resetAll, SPState.init, SPOp.about, genNext, genAdvance, spNext,
    getSampler, nextCore, Demo.plain] at this

/-- A process whose samples depend on a cursor shared by all its samplers (as the
component cursor of rf.py:446-452 is). -/
def Demo.cursor : Proc ℤ ℤ ℤ :=
  ⟨some fun _ st => (st + 1, .ok st), fun _ _ st => (st, .error .type), false, none, none, none⟩

/-- C38 fails for a process with state of its own: a draw from another sampler
changes what this one yields. -/
theorem C38_claim_fails_cursor : ¬ C38_claim := by
  intro h
  have := (h ℤ ℤ ℤ Demo.cursor 0 [.create none, .create none] [.draw 1 0, .draw 0 0] 0
    (by simp [runOps, SPOp.run, mkSampler, SPState.init])).1
  simp [runOps, SPOp.run, mkSampler, SPState.init, SPOp.about, genNext, genAdvance, spNext,
    getSampler, nextCore, Demo.cursor] at this

/-- Non-vacuity of `C38_partial`: a sampler exists after one creation. -/
example : 0 < (runOps Demo.plain 0 [.create (some 2)] (SPState.init ℤ ())).1.made := by
  simp [runOps, SPOp.run, mkSampler, SPState.init]

/-! ### C39 collecting samples -/

/-- Specification of a collected attribute: the values of the retained samples
that have one, in order; `None` if there is none. -/
def Spec.collected {α : Type} (f : Sample D → Option α) (xs : List (Sample D)) : Option (List α) :=
  let ys := (xs.filter fun x => x.u ≠ some false).filterMap f
  if ys = [] then none else some ys

theorem maybeAppend_collected {α : Type} (f : Sample D → Option α) (xs : List (Sample D))
    (x : Sample D) (hx : x.u ≠ some false) :
    maybeAppend (Spec.collected f xs) (f x) = Spec.collected f (xs ++ [x]) := by
  unfold Spec.collected
  have hfil : (xs ++ [x]).filter (fun x => x.u ≠ some false)
      = xs.filter (fun x => x.u ≠ some false) ++ [x] := by simp [hx]
  rw [hfil, List.filterMap_append]
  generalize List.filterMap f (List.filter (fun x => x.u ≠ some false) xs) = ys
  rcases hf : f x with _ | a
  · simp [maybeAppend, hf]
  · by_cases h : ys = []
    · simp [maybeAppend, hf, h]
    · simp [maybeAppend, hf, h]

/-- C39: every sample not refused by the update (verdict other than `False`;
Metropolis rejections are `None`) is collected, in order and with multiplicity,
in every attribute. -/
theorem C39_collect (upd : Bool) (xs : List (Sample D)) :
    (collect upd xs).o = Spec.collected (·.o) xs ∧ (collect upd xs).p = Spec.collected (·.p) xs ∧
    (collect upd xs).q = Spec.collected (·.q) xs ∧ (collect upd xs).r = Spec.collected (·.r) xs ∧
    (collect upd xs).s = Spec.collected (·.s) xs ∧ (collect upd xs).t = Spec.collected (·.t) xs ∧
    (collect upd xs).v = Spec.collected (·.v) xs ∧
    (collect upd xs).u = if upd then (xs.map (·.u)).filter (· ≠ some false) else [] := by
  induction xs using List.reverseRecOn with
  | nil => simp [collect, Spec.collected]
  | append_singleton xs x ih =>
    have hstep : collect upd (xs ++ [x]) = collectStep upd (collect upd xs) x := by
      simp [collect]
    rw [hstep]
    obtain ⟨h1, h2, h3, h4, h5, h6, h7, h8⟩ := ih
    unfold collectStep
    by_cases hx : x.u = some false
    · rw [if_pos hx]
      have hc : ∀ {α : Type} (f : Sample D → Option α),
          Spec.collected f (xs ++ [x]) = Spec.collected f xs := by
        intro α f; simp [Spec.collected, hx]
      simp only [hc, h1, h2, h3, h4, h5, h6, h7, h8, true_and]
      simp [hx]
    · rw [if_neg hx]
      simp only [h1, h2, h3, h4, h5, h6, h7, h8, ← maybeAppend_collected _ xs x hx, true_and]
      cases upd <;> simp [hx]

/-- C39: with Metropolis updates (`True` or `None`) no sample is lost: as many
verdicts are collected as there are samples with a verdict. -/
theorem C39_metropolis_keeps_all (upd : Bool) (xs : List (Sample D))
    (hu : ∀ x ∈ xs, x.u = some true ∨ x.u = none) (hv : ∀ x ∈ xs, ∃ d, x.v = some d) (hne : xs ≠ []) :
    ∃ vs, (collect upd xs).v = some vs ∧ vs.map some = xs.map (·.v) := by
  rw [(C39_collect upd xs).2.2.2.2.2.2.1]
  have hf : xs.filter (fun x => x.u ≠ some false) = xs := by
    apply List.filter_eq_self.mpr
    intro x hx
    rcases hu x hx with h | h <;> simp [h]
  have hm : ∀ ys : List (Sample D), (∀ x ∈ ys, ∃ d, x.v = some d) →
      (ys.filterMap (·.v)).map some = ys.map (·.v) := by
    intro ys
    induction ys with
    | nil => simp
    | cons y ys ih =>
      intro h
      obtain ⟨d, hd⟩ := h y (by simp)
      simp only [List.filterMap_cons, hd, List.map_cons]
      rw [ih (fun x hx => h x (by simp [hx]))]
  refine ⟨xs.filterMap (·.v), ?_, hm xs hv⟩
  unfold Spec.collected
  rw [hf]
  simp only [ite_eq_right_iff, reduceCtorEq, imp_false]
  intro hc
  have := hm xs hv
  rw [hc] at this
  simp at this
  exact hne this

/-- Non-vacuity: an accepted and a rejected sample. -/
example : (collect true [⟨none, some 1, some 1, none, none, none, some true, some (1 : ℤ)⟩,
    ⟨some 1, some 2, some 2, none, none, none, none, some 1⟩]).v = some [1, 1] := rfl

end Probayes
