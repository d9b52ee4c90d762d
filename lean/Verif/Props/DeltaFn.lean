/-
C90: processes moved by a function of the user and judged by the rules of Metropolis and of
Hastings.
-/
import Verif.Model.DeltaFn
import Verif.Props.WalkSphere

namespace Probayes

open MeasureTheory

variable {n : ℕ} {Ω : Type}

/-! ### Specification -/

/-- A float variable without deltas of its own: its set and its transform, if any. -/
structure Spec.Axis where
  set : FSet
  uf : UFun

/-- The process of the variables: `f` is given to `set_delta` and `q`, or a pair starting with
`q`, to `set_tran`. -/
noncomputable def Spec.mover (cs : Fin n → Spec.Axis) (bound : Bool) (f : Ω → Py (DeltaRet n))
    (prob : (Fin n → ℝ) → ℝ) (q : (Fin n → ℝ) → (Fin n → ℝ) → ℝ) (pair hastings : Bool) (start : Fin n → ℝ)
    (pscale : PSpec) : Proc Unit (Row (Fin n → ℝ)) (DDraw Ω) :=
  funProc (deltaStep (fun i => .make (cs i).set) (fun i => (cs i).uf) bound f) prob q pair hastings start pscale

/-- The values after the deltas are added to the transformed values. -/
def Spec.displaced (cs : Fin n → Spec.Axis) (x δ : Fin n → ℝ) : Fin n → ℝ :=
  fun i => (cs i).uf.inv ((cs i).uf.fwd (x i) + δ i)

/-- The conditions under which the transition functions take no part: for the rule of
Hastings, the density stated for the move from `x` to `y` is positive and, for pairs, the scale
is 1 and the target and its product with it not below the smallest normal float. -/
def Spec.Judgeable (hastings pair : Bool) (pscale : PSpec) (w : (Fin n → ℝ) → ℝ)
    (q : (Fin n → ℝ) → (Fin n → ℝ) → ℝ) (x y : Fin n → ℝ) : Prop :=
  hastings = true →
    (pair = false → ∃ a, evalPscale pscale = .ok a ∧ Spec.Valid a ∧ Spec.Unclamped (q x y) a (.lin 1) ∧
      0 < Spec.value a (q x y)) ∧
    (pair = true → evalPscale pscale = .ok (.lin 1) ∧ npz ≤ w x ∧ 0 < q x y ∧ npz ≤ w x * q x y)

/-- The probability that the process in the state `l` is in the set `A` after `k` further
samples, those of the user's function being independent with law `P`, and the thresholds
uniform. -/
noncomputable def Spec.arrives [MeasurableSpace Ω] (P : Measure Ω) (R : Proc Unit (Row (Fin n → ℝ)) (DDraw Ω)) :
    ℕ → OPQR (Row (Fin n → ℝ)) → _root_.Set (Fin n → ℝ) → ENNReal
  | 0, l, A => open Classical in if ∃ x ∈ A, l.p.map Row.val = some x then 1 else 0
  | k + 1, l, A => ∫⁻ d, Spec.mean (fun t =>
      Spec.arrives P R k ((nextCore R (some l) ⟨d, t⟩ ()).2.1.getD l) A) ∂P

/-- The density `w`, in the coordinates in which the steps are made, is kept by the process. -/
def Spec.KeepsWeight [MeasurableSpace Ω] (P : Measure Ω) (R : Proc Unit (Row (Fin n → ℝ)) (DDraw Ω))
    (prob w : (Fin n → ℝ) → ℝ) (g : (Fin n → ℝ) → Fin n → ℝ) : Prop :=
  ∀ l : (Fin n → ℝ) → OPQR (Row (Fin n → ℝ)), (∀ x, Spec.At prob (l x) x) → ∀ k A, MeasurableSet A →
    ∫⁻ s, ENNReal.ofReal (w (g s)) * Spec.arrives P R k (l (g s)) A =
      ∫⁻ s in {s | g s ∈ A}, ENNReal.ofReal (w (g s))

/-- The values of transformed coordinates. -/
def Spec.untransformed (cs : Fin n → Spec.Axis) (s : Fin n → ℝ) : Fin n → ℝ := fun i => (cs i).uf.inv (s i)

/-! ### One sample -/

theorem deltaStep_ok (cs : Fin n → Spec.Axis) (f : Ω → Py (DeltaRet n)) (x δ : Fin n → ℝ)
    (hx : ∀ i, (cs i).uf.inv ((cs i).uf.fwd (x i)) = x i) (ω : DDraw Ω) (hf : f ω.d = .ok (.delta δ)) :
    deltaStep (fun i => .make (cs i).set) (fun i => (cs i).uf) false f x ω = .ok (Spec.displaced cs x δ) := by
  simp only [deltaStep, hf, DeltaRet.eval, bind, Except.bind, pure, Except.pure]
  congr 1
  funext i
  have hx := hx i
  by_cases h : δ i = 0
  · simp [applyNums, bareCoord, FloatVar.applyScalar, effectiveDelta, orDefault, DeltaSpec.truthy, h, Spec.displaced, hx]
  · simp only [applyNums, bareCoord, FloatVar.applyScalar, effectiveDelta, orDefault, DeltaSpec.truthy, h, ne_eq,
      not_false_eq_true, decide_true, if_true, Option.getD_some, Bool.false_eq_true, if_false, Spec.displaced]
    unfold shift
    rcases (cs i).uf with _ | ⟨a, b⟩ <;> rfl

theorem fun_score {hastings pair : Bool} {pscale : PSpec} {a : PScale} {prob w : (Fin n → ℝ) → ℝ}
    {q : (Fin n → ℝ) → (Fin n → ℝ) → ℝ} {x y : Fin n → ℝ} (hs : evalPscale pscale = .ok a) (ha : Spec.Valid a)
    (hux : Spec.Unclamped (prob x) a (.lin 1)) (huy : Spec.Unclamped (prob y) a (.lin 1))
    (hwx : Spec.value a (prob x) = w x) (hwy : Spec.value a (prob y) = w y)
    (hj : Spec.Judgeable hastings pair pscale w q x y) (r : Option (Row (Fin n → ℝ)))
    (hr : r = if pair then some ⟨y, .scalar (q x y)⟩ else none) :
    (if hastings then hastingsScores Row.prob (⟨some ⟨x, .scalar (prob x)⟩, some ⟨y, .scalar (prob y)⟩,
          some ⟨y, .scalar (q x y)⟩, r⟩ : OPQR (Row (Fin n → ℝ))) pscale
      else metropolisScores Row.prob (⟨some ⟨x, .scalar (prob x)⟩, some ⟨y, .scalar (prob y)⟩,
          some ⟨y, .scalar (q x y)⟩, r⟩ : OPQR (Row (Fin n → ℝ))) pscale) =
      .ok (some (Spec.ratio (w x) (w y))) := by
  obtain ⟨z, hz, hv⟩ := C06_divProb_value (prob y) (prob x) pscale pscale (.flt 1) a a (.lin 1) hs hs
    (by simp [evalPscale]) (by simp [PSpec.truthy]) ha ha one_pos huy hux trivial
  rw [show Spec.value (.lin 1) z = z by simp [Spec.value], hwx, hwy] at hv
  cases hastings with
  | false => simp [metropolisScores, hz, hv, Spec.ratio, bind, Except.bind, pure, Except.pure]
  | true =>
      obtain ⟨h0, h1⟩ := hj rfl
      cases pair with
      | false =>
          obtain ⟨a', hs', -, hu, hpos⟩ := h0 rfl
          obtain rfl : a = a' := by rw [hs] at hs'; exact Except.ok.inj hs'
          obtain ⟨c, hc, hcv⟩ := C01_rescale_value (q x y) pscale (.flt 1) a (.lin 1) hs (by simp [evalPscale]) ha
            one_pos hu
          rw [show Spec.value (.lin 1) c = c by simp [Spec.value]] at hcv
          subst hr
          simp [hastingsScores, hz, hv, hc, hcv, not_le.mpr hpos, Spec.ratio, bind, Except.bind, pure, Except.pure]
      | true =>
          obtain ⟨hs', hwn, hpos, hle⟩ := h1 rfl
          obtain rfl : a = .lin 1 := by rw [hs] at hs'; exact Except.ok.inj hs'
          have h1' : evalPscale (.flt 1) = .ok (.lin 1) := by simp [evalPscale]
          have hc : rescale (q x y) pscale (.flt 1) = .ok (q x y) := by
            simp [rescale, hs, h1', bind, Except.bind, pure, Except.pure, rescaleE]
          simp only [Spec.value, one_mul] at hwx hwy
          obtain ⟨z', hz', hv'⟩ := C06_divProb_value (w y * q x y) (w x * q x y) pscale pscale (.flt 1) (.lin 1)
            (.lin 1) (.lin 1) hs hs h1' (by simp [PSpec.truthy]) one_pos one_pos one_pos trivial trivial trivial
          simp only [Spec.value, one_mul] at hv'
          have hval : z' = w y / max npz (w x) := by
            rw [hv', max_eq_right hle, max_eq_right hwn, mul_div_mul_right _ _ hpos.ne']
          subst hr
          simp [hastingsScores, hwx, hwy, hc, not_le.mpr hpos, hz', hval, Spec.ratio, bind, Except.bind, pure, Except.pure]

/-- A sample from `x` for which the step leads to `y`. -/
theorem mover_step (cs : Fin n → Spec.Axis) (bound : Bool) (f : Ω → Py (DeltaRet n)) (prob w : (Fin n → ℝ) → ℝ)
    (q : (Fin n → ℝ) → (Fin n → ℝ) → ℝ) (pair hastings : Bool) (start : Fin n → ℝ) (pscale : PSpec)
    (hst : Spec.Stored prob pscale w) (l : OPQR (Row (Fin n → ℝ))) (x y : Fin n → ℝ) (ω : DDraw Ω)
    (hl : Spec.At prob l x)
    (hy : deltaStep (fun i => .make (cs i).set) (fun i => (cs i).uf) bound f x ω = .ok y)
    (hj : Spec.Judgeable hastings pair pscale w q x y) :
    ∃ l' smp, nextCore (Spec.mover cs bound f prob q pair hastings start pscale) (some l) ω () =
        ((), some l', .ok (.sample smp)) ∧
      (ω.t ≤ Spec.ratio (w x) (w y) → Spec.At prob l' y ∧ smp.v = some ⟨y, .scalar (prob y)⟩) ∧
      (¬ ω.t ≤ Spec.ratio (w x) (w y) → l' = l ∧ smp.v = some ⟨x, .scalar (prob x)⟩) := by
  obtain ⟨a, hs, ha, hu, hw⟩ := hst.scale
  obtain ⟨hp, q', hq⟩ := hl
  have hsc := fun_score (q := q) hs ha (hu x) (hu y) (hw x) (hw y) hj
    (if pair then some ⟨y, .scalar (q x y)⟩ else none) rfl
  set r : Option (Row (Fin n → ℝ)) := if pair then some ⟨y, .scalar (q x y)⟩ else none with hr
  have hsmp : sampleTran (funOps (deltaStep (fun i => .make (cs i).set) (fun i => (cs i).uf) bound f) prob q pair
      start) (some l) ω () = ((), .ok ⟨some ⟨x, .scalar (prob x)⟩, some ⟨y, .scalar (prob y)⟩,
        some ⟨y, .scalar (q x y)⟩, r⟩) := by
    cases pair <;>
      simp [sampleTran, funOps, hp, hq, hy, sampleFinish, bind, Except.bind, pure, Except.pure, hr]
  by_cases ht : ω.t ≤ Spec.ratio (w x) (w y)
  · exact ⟨⟨some ⟨x, .scalar (prob x)⟩, some ⟨y, .scalar (prob y)⟩, some ⟨y, .scalar (q x y)⟩, r⟩, _,
      by simp [nextCore, Spec.mover, funProc, hsmp, judge, evalScores,
        evalUpdate, hsc, walkUpdate, metropolisUpdate, ht, bind, Except.bind, pure, Except.pure]; rfl,
      fun _ => ⟨⟨rfl, _, rfl⟩, rfl⟩, fun h => absurd ht h⟩
  · exact ⟨l, _,
      by simp [nextCore, Spec.mover, funProc, hsmp, judge, evalScores,
        evalUpdate, hsc, walkUpdate, metropolisUpdate, ht, bind, Except.bind, pure, Except.pure]; rfl,
      fun h => absurd h ht, fun _ => ⟨rfl, rfl⟩⟩

/-- C90: from `x`, with the numbers `δ` of the function, the process moves to the displaced
values if the threshold is at most the ratio of the targets, and stays otherwise, whatever the
transition functions. -/
theorem C90_step (cs : Fin n → Spec.Axis) (f : Ω → Py (DeltaRet n)) (prob w : (Fin n → ℝ) → ℝ)
    (q : (Fin n → ℝ) → (Fin n → ℝ) → ℝ) (pair hastings : Bool) (start : Fin n → ℝ) (pscale : PSpec)
    (hst : Spec.Stored prob pscale w) (l : OPQR (Row (Fin n → ℝ))) (x δ : Fin n → ℝ) (ω : DDraw Ω)
    (hl : Spec.At prob l x) (hx : ∀ i, (cs i).uf.inv ((cs i).uf.fwd (x i)) = x i) (hf : f ω.d = .ok (.delta δ))
    (hj : Spec.Judgeable hastings pair pscale w q x (Spec.displaced cs x δ)) :
    ∃ l' smp, nextCore (Spec.mover cs false f prob q pair hastings start pscale) (some l) ω () =
        ((), some l', .ok (.sample smp)) ∧
      (ω.t ≤ Spec.ratio (w x) (w (Spec.displaced cs x δ)) → Spec.At prob l' (Spec.displaced cs x δ) ∧
        smp.v = some ⟨Spec.displaced cs x δ, .scalar (prob (Spec.displaced cs x δ))⟩) ∧
      (¬ ω.t ≤ Spec.ratio (w x) (w (Spec.displaced cs x δ)) → l' = l ∧ smp.v = some ⟨x, .scalar (prob x)⟩) :=
  mover_step cs false f prob w q pair hastings start pscale hst l x _ ω hl (deltaStep_ok cs f x δ hx ω hf) hj

/-! ### Many samples -/

/-- The transforms are inverted by their second functions, which are measurable. -/
def Spec.Invertible (cs : Fin n → Spec.Axis) : Prop := ∀ i, (∀ s, (cs i).uf.fwd ((cs i).uf.inv s) = s) ∧ Measurable (cs i).uf.inv

theorem displaced_back {cs : Fin n → Spec.Axis} (hcs : Spec.Invertible cs) (s δ : Fin n → ℝ) :
    Spec.displaced cs (Spec.untransformed cs s) δ = Spec.untransformed cs (s + δ) := by
  funext i
  simp [Spec.displaced, Spec.untransformed, (hcs i).1]

variable [MeasurableSpace Ω]

theorem arrives_of {P : Measure Ω} {cs : Fin n → Spec.Axis} {bound : Bool}
    {f : Ω → Py (DeltaRet n)} {mv : (Fin n → ℝ) → Ω → Fin n → ℝ}
    (hmv : ∀ s ω, deltaStep (fun i => .make (cs i).set) (fun i => (cs i).uf) bound f (Spec.untransformed cs s) ω =
      .ok (Spec.untransformed cs (mv s ω.d)))
    {prob w : (Fin n → ℝ) → ℝ} {q : (Fin n → ℝ) → (Fin n → ℝ) → ℝ} {pair hastings : Bool} {start : Fin n → ℝ}
    {pscale : PSpec} (hst : Spec.Stored prob pscale w)
    (hj : ∀ s ω, Spec.Judgeable hastings pair pscale w q (Spec.untransformed cs s) (Spec.untransformed cs (mv s ω)))
    (A : Set (Fin n → ℝ)) (k : ℕ) :
    ∀ (l : OPQR (Row (Fin n → ℝ))) (s : Fin n → ℝ), Spec.At prob l (Spec.untransformed cs s) →
      Spec.arrives P (Spec.mover cs bound f prob q pair hastings start pscale) k l A =
        ((afterF P (fun s => w (Spec.untransformed cs s)) mv)^[k]
          ((Spec.untransformed cs ⁻¹' A).indicator 1)) s := by
  classical
  have hnn := stored_nonneg hst
  induction k with
  | zero =>
      intro l s hl
      simp only [Spec.arrives, Function.iterate_zero, id, hl.1, Option.map_some, Option.some.injEq]
      by_cases h : Spec.untransformed cs s ∈ A
      · rw [if_pos ⟨_, h, rfl⟩, Set.indicator_of_mem (s := Spec.untransformed cs ⁻¹' A) h]; rfl
      · rw [if_neg (by rintro ⟨y, hy, rfl⟩; exact h hy), Set.indicator_of_notMem (s := Spec.untransformed cs ⁻¹' A) h]
  | succ k ih =>
      intro l s hl
      rw [Function.iterate_succ_apply']
      set F := (afterF P (fun s => w (Spec.untransformed cs s)) mv)^[k]
        ((Spec.untransformed cs ⁻¹' A).indicator 1)
      simp only [Spec.arrives, afterF]
      congr 1
      funext d
      have hstep : ∀ t, Spec.arrives P (Spec.mover cs bound f prob q pair hastings start pscale) k
          ((nextCore (Spec.mover cs bound f prob q pair hastings start pscale) (some l) ⟨d, t⟩ ()).2.1.getD l) A =
          if t ≤ Spec.ratio (w (Spec.untransformed cs s)) (w (Spec.untransformed cs (mv s d))) then F (mv s d)
            else F s := by
        intro t
        obtain ⟨l', smp, h1, h2, h3⟩ := mover_step cs bound f prob w q pair hastings start pscale hst l
          _ _ ⟨d, t⟩ hl (hmv s ⟨d, t⟩) (hj _ _)
        rw [h1]
        simp only [Option.getD_some]
        by_cases ht : t ≤ Spec.ratio (w (Spec.untransformed cs s)) (w (Spec.untransformed cs (mv s d)))
        · rw [if_pos ht]
          exact ih l' _ (h2 ht).1
        · rw [if_neg ht, (h3 ht).1]
          exact ih l s hl
      simp only [hstep]
      obtain ⟨r0, r1⟩ := ratio_bounds (w (Spec.untransformed cs s)) (w (Spec.untransformed cs (mv s d))) (hnn _)
      exact mean_le _ _ _ r0 r1

theorem arrives_eq {P : Measure Ω} {cs : Fin n → Spec.Axis} (hcs : Spec.Invertible cs)
    {f : Ω → Py (DeltaRet n)} {D : Ω → Fin n → ℝ} (hf : ∀ ω, f ω = .ok (.delta (D ω)))
    {prob w : (Fin n → ℝ) → ℝ} {q : (Fin n → ℝ) → (Fin n → ℝ) → ℝ} {pair hastings : Bool} {start : Fin n → ℝ}
    {pscale : PSpec} (hst : Spec.Stored prob pscale w)
    (hj : ∀ x ω, Spec.Judgeable hastings pair pscale w q x (Spec.displaced cs x (D ω)))
    (A : Set (Fin n → ℝ)) (k : ℕ) :
    ∀ (l : OPQR (Row (Fin n → ℝ))) (s : Fin n → ℝ), Spec.At prob l (Spec.untransformed cs s) →
      Spec.arrives P (Spec.mover cs false f prob q pair hastings start pscale) k l A =
        ((afterF P (fun s => w (Spec.untransformed cs s)) fun s ω => s + D ω)^[k]
          ((Spec.untransformed cs ⁻¹' A).indicator 1)) s :=
  arrives_of (mv := fun s ω => s + D ω) (fun s ω => by
    rw [deltaStep_ok cs f _ (D ω.d) (fun i => by simp only [Spec.untransformed, (hcs i).1]) ω (hf _), displaced_back hcs])
    hst (fun s ω => by rw [← displaced_back hcs]; exact hj _ _) A k

/-- Moves of a symmetric law are reversible. -/
theorem shift_reversible {P : Measure Ω} [IsProbabilityMeasure P] {D : Ω → Fin n → ℝ} (hD : Measurable D)
    (hsym : P.map (fun ω => - D ω) = P.map D) (G : (Fin n → ℝ) → (Fin n → ℝ) → ENNReal)
    (hG : Measurable fun p : (Fin n → ℝ) × (Fin n → ℝ) => G p.1 p.2) :
    ∫⁻ s in Set.univ, ∫⁻ ω, G s (s + D ω) ∂P = ∫⁻ s in Set.univ, ∫⁻ ω, G (s + D ω) s ∂P := by
  have m0 : Measurable fun p : (Fin n → ℝ) × Ω => p.1 + D p.2 := measurable_fst.add (hD.comp measurable_snd)
  have m1 : Measurable fun p : (Fin n → ℝ) × Ω => G p.1 (p.1 + D p.2) := hG.comp (measurable_fst.prodMk m0)
  have m2 : Measurable fun p : (Fin n → ℝ) × Ω => G (p.1 + D p.2) p.1 := hG.comp (m0.prodMk measurable_fst)
  have hmap : ∀ (s : Fin n → ℝ), ∫⁻ ω, G s (s + D ω) ∂P = ∫⁻ ω, G s (s + - D ω) ∂P := by
    intro s
    have hg : Measurable fun δ : Fin n → ℝ => G s (s + δ) :=
      hG.comp (measurable_const.prodMk (measurable_const.add measurable_id))
    have h1 : ∫⁻ ω, G s (s + D ω) ∂P = ∫⁻ δ, G s (s + δ) ∂(P.map D) := (lintegral_map hg hD).symm
    have h2 : ∫⁻ ω, G s (s + - D ω) ∂P = ∫⁻ δ, G s (s + δ) ∂(P.map fun ω => - D ω) := (lintegral_map hg hD.neg).symm
    rw [h1, h2, hsym]
  simp only [Measure.restrict_univ, hmap]
  have m3 : Measurable fun p : (Fin n → ℝ) × Ω => G p.1 (p.1 + - D p.2) :=
    hG.comp (measurable_fst.prodMk (measurable_fst.add (hD.comp measurable_snd).neg))
  rw [lintegral_lintegral_swap (f := fun s ω => G s (s + - D ω)) m3.aemeasurable,
    lintegral_lintegral_swap (f := fun s ω => G (s + D ω) s) m2.aemeasurable]
  congr 1
  funext ω
  rw [← lintegral_add_right_eq_self (fun s => G s (s + - D ω)) (D ω)]
  simp

/-- C90, full claim: if the density of the function's numbers is what is stated to `set_tran`,
alone or in a pair, the rule of Hastings keeps every target, whatever that density. -/
def C90_claim (pair : Bool) : Prop :=
  ∀ (n : ℕ) (Ω : Type) (_ : MeasurableSpace Ω) (P : Measure Ω) (_ : IsProbabilityMeasure P) (cs : Fin n → Spec.Axis)
    (f : Ω → Py (DeltaRet n)) (D : Ω → Fin n → ℝ) (h : (Fin n → ℝ) → ℝ) (prob w : (Fin n → ℝ) → ℝ)
    (start : Fin n → ℝ) (pscale : PSpec), (∀ i, (cs i).uf = none) → (∀ ω, f ω = .ok (.delta (D ω))) → Measurable D →
    Measurable h → (∀ δ, Spec.Normal (h δ)) → P.map D = volume.withDensity (fun δ => ENNReal.ofReal (h δ)) →
    evalPscale pscale = .ok (.lin 1) → Spec.Stored prob pscale w → Measurable w →
    ∫⁻ x, ENNReal.ofReal (w x) = 1 →
    Spec.KeepsWeight P (Spec.mover cs false f prob (fun x y => h (y - x)) pair true start pscale) prob w id

/-- C90, proved part: functions whose numbers are as likely as their opposites keep every
target, judged by either rule, whatever positive densities are stated. -/
theorem C90_keeps_partial {P : Measure Ω} [IsProbabilityMeasure P] {cs : Fin n → Spec.Axis} (hcs : Spec.Invertible cs)
    {f : Ω → Py (DeltaRet n)} {D : Ω → Fin n → ℝ} (hf : ∀ ω, f ω = .ok (.delta (D ω))) (hD : Measurable D)
    (hsym : P.map (fun ω => - D ω) = P.map D)
    {prob w : (Fin n → ℝ) → ℝ} {q : (Fin n → ℝ) → (Fin n → ℝ) → ℝ} {pair hastings : Bool} {start : Fin n → ℝ}
    {pscale : PSpec} (hst : Spec.Stored prob pscale w) (hw : Measurable w)
    (hj : ∀ x ω, Spec.Judgeable hastings pair pscale w q x (Spec.displaced cs x (D ω))) :
    Spec.KeepsWeight P (Spec.mover cs false f prob q pair hastings start pscale) prob w (Spec.untransformed cs) := by
  classical
  intro l hl k A hA
  set g := Spec.untransformed cs with hg
  have hgm : Measurable g := measurable_pi_iff.mpr fun i => (hcs i).2.comp (measurable_pi_apply i)
  have hwg : Measurable fun s => w (g s) := hw.comp hgm
  have hAm : MeasurableSet (g ⁻¹' A) := hgm hA
  have hmv : Measurable fun p : (Fin n → ℝ) × Ω => p.1 + D p.2 := measurable_fst.add (hD.comp measurable_snd)
  have hFm : ∀ k, Measurable ((afterF P (fun s => w (g s)) fun s ω => s + D ω)^[k] ((g ⁻¹' A).indicator 1)) := by
    intro k
    induction k with
    | zero => exact measurable_one.indicator hAm
    | succ k ih =>
        rw [Function.iterate_succ_apply']
        exact afterF_measurable hwg hmv ih
  have hkeep : ∀ k, ∫⁻ s, ENNReal.ofReal (w (g s)) *
      ((afterF P (fun s => w (g s)) fun s ω => s + D ω)^[k] ((g ⁻¹' A).indicator 1)) s =
        ∫⁻ s, ENNReal.ofReal (w (g s)) * (g ⁻¹' A).indicator 1 s := by
    intro k
    induction k with
    | zero => rfl
    | succ k ih =>
        rw [← ih]
        simp only [Function.iterate_succ_apply']
        have := afterF_keeps_of (R := Set.univ) hmv (shift_reversible hD hsym) hwg (fun s => hst.nonneg _) (hFm k)
        simpa only [Measure.restrict_univ] using this
  have harr := fun s => arrives_eq (P := P) (start := start) hcs hf hst hj A k (l (g s)) s (hl _)
  simp only [harr]
  rw [hkeep k]
  change _ = ∫⁻ s in g ⁻¹' A, _
  rw [← lintegral_indicator hAm]
  congr 1
  funext s
  by_cases h : s ∈ g ⁻¹' A
  · simp [Set.indicator_of_mem h]
  · simp [Set.indicator_of_notMem h]

/-! ### What else samples may be -/

omit [MeasurableSpace Ω] in
/-- C90: the first sample is at the displaced start, whatever its probability. -/
theorem C90_first (cs : Fin n → Spec.Axis) (f : Ω → Py (DeltaRet n)) (prob : (Fin n → ℝ) → ℝ)
    (q : (Fin n → ℝ) → (Fin n → ℝ) → ℝ) (pair hastings : Bool) (start : Fin n → ℝ) (pscale : PSpec)
    (δ : Fin n → ℝ) (ω : DDraw Ω) (hx : ∀ i, (cs i).uf.inv ((cs i).uf.fwd (start i)) = start i)
    (hf : f ω.d = .ok (.delta δ)) :
    ∃ l' smp, nextCore (Spec.mover cs false f prob q pair hastings start pscale) none ω () =
        ((), some l', .ok (.sample smp)) ∧ Spec.At prob l' (Spec.displaced cs start δ) ∧
      smp.v = some ⟨Spec.displaced cs start δ, .scalar (prob (Spec.displaced cs start δ))⟩ := by
  have hy := deltaStep_ok cs f start δ hx ω hf
  set y := Spec.displaced cs start δ
  set r : Option (Row (Fin n → ℝ)) := if pair then some ⟨y, .scalar (q start y)⟩ else none with hr
  have hsmp : sampleTran (funOps (deltaStep (fun i => .make (cs i).set) (fun i => (cs i).uf) false f) prob q pair
      start) none ω () = ((), .ok ⟨none, some ⟨y, .scalar (prob y)⟩, some ⟨y, .scalar (q start y)⟩, r⟩) := by
    cases pair <;>
      simp [sampleTran, funOps, hy, sampleFinish, bind, Except.bind, pure, Except.pure, hr]
  refine ⟨⟨none, some ⟨y, .scalar (prob y)⟩, some ⟨y, .scalar (q start y)⟩, r⟩,
    ⟨none, some ⟨y, .scalar (prob y)⟩, some ⟨y, .scalar (q start y)⟩, r, none, some ω.t, some true,
      some ⟨y, .scalar (prob y)⟩⟩, ?_, ⟨rfl, _, rfl⟩, rfl⟩
  cases hastings <;>
    simp [nextCore, Spec.mover, funProc, hsmp, judge, evalScores, evalUpdate, hastingsScores, metropolisScores,
      walkUpdate, metropolisUpdate, bind, Except.bind, pure, Except.pure]

omit [MeasurableSpace Ω] in
/-- C90: a move for which the stated density is not positive is always accepted by the rule of
Hastings, even to where the target is zero. -/
theorem C90_unstated (cs : Fin n → Spec.Axis) (f : Ω → Py (DeltaRet n)) (prob : (Fin n → ℝ) → ℝ)
    (q : (Fin n → ℝ) → (Fin n → ℝ) → ℝ) (pair : Bool) (start : Fin n → ℝ) (pscale : PSpec) (a : PScale)
    (hs : evalPscale pscale = .ok a) (ha : Spec.Valid a) (l : OPQR (Row (Fin n → ℝ))) (x δ : Fin n → ℝ) (ω : DDraw Ω)
    (hl : Spec.At prob l x) (hx : ∀ i, (cs i).uf.inv ((cs i).uf.fwd (x i)) = x i) (hf : f ω.d = .ok (.delta δ))
    (hu : Spec.Unclamped (q x (Spec.displaced cs x δ)) a (.lin 1))
    (h0 : Spec.value a (q x (Spec.displaced cs x δ)) ≤ 0) :
    ∃ l' smp, nextCore (Spec.mover cs false f prob q pair true start pscale) (some l) ω () =
        ((), some l', .ok (.sample smp)) ∧ Spec.At prob l' (Spec.displaced cs x δ) ∧
      smp.v = some ⟨Spec.displaced cs x δ, .scalar (prob (Spec.displaced cs x δ))⟩ := by
  obtain ⟨hp, q', hq⟩ := hl
  have hy := deltaStep_ok cs f x δ hx ω hf
  set y := Spec.displaced cs x δ
  obtain ⟨c, hc, hcv⟩ := C01_rescale_value (q x y) pscale (.flt 1) a (.lin 1) hs (by simp [evalPscale]) ha
    one_pos hu
  rw [show Spec.value (.lin 1) c = c by simp [Spec.value]] at hcv
  set r : Option (Row (Fin n → ℝ)) := if pair then some ⟨y, .scalar (q x y)⟩ else none with hr
  have hsmp : sampleTran (funOps (deltaStep (fun i => .make (cs i).set) (fun i => (cs i).uf) false f) prob q pair
      start) (some l) ω () = ((), .ok ⟨some ⟨x, .scalar (prob x)⟩, some ⟨y, .scalar (prob y)⟩,
        some ⟨y, .scalar (q x y)⟩, r⟩) := by
    cases pair <;>
      simp [sampleTran, funOps, hp, hq, hy, sampleFinish, bind, Except.bind, pure, Except.pure, hr]
  have hc0 : c ≤ 0 := by rw [hcv]; exact h0
  refine ⟨⟨some ⟨x, .scalar (prob x)⟩, some ⟨y, .scalar (prob y)⟩, some ⟨y, .scalar (q x y)⟩, r⟩,
    ⟨some ⟨x, .scalar (prob x)⟩, some ⟨y, .scalar (prob y)⟩, some ⟨y, .scalar (q x y)⟩, r, none, some ω.t, some true,
      some ⟨y, .scalar (prob y)⟩⟩, ?_, ⟨rfl, _, rfl⟩, rfl⟩
  simp [nextCore, Spec.mover, funProc, hsmp, judge, evalScores, evalUpdate, hastingsScores,
      hc, hc0, walkUpdate, metropolisUpdate, bind, Except.bind, pure, Except.pure]

omit [MeasurableSpace Ω] in
/-- C90: if the function raises, or returns something other than the field's `Delta`, the sample
raises and the process stays where it was. -/
theorem C90_refused (cs : Fin n → Spec.Axis) (bound : Bool) (f : Ω → Py (DeltaRet n)) (prob : (Fin n → ℝ) → ℝ)
    (q : (Fin n → ℝ) → (Fin n → ℝ) → ℝ) (pair hastings : Bool) (start : Fin n → ℝ) (pscale : PSpec)
    (l : OPQR (Row (Fin n → ℝ))) (x : Fin n → ℝ) (ω : DDraw Ω) (hl : Spec.At prob l x) (e : Err)
    (hf : f ω.d = .error e ∨ f ω.d = .ok .tuple ∧ e = .type ∨ f ω.d = .ok .other ∧ e = .assertion) :
    nextCore (Spec.mover cs bound f prob q pair hastings start pscale) (some l) ω () = ((), some l, .error e) ∧
      nextCore (Spec.mover cs bound f prob q pair hastings start pscale) none ω () = ((), none, .error e) := by
  obtain ⟨hp, q', hq⟩ := hl
  rcases hf with h | ⟨h, rfl⟩ | ⟨h, rfl⟩ <;>
    simp [nextCore, Spec.mover, funProc, sampleTran, funOps, hq, deltaStep, h, DeltaRet.eval, bind, Except.bind]

/-- C90: if every open set of numbers is drawn with positive probability, and the target is
positive on an open set that is not empty, the process is there with positive probability
after any number of samples, from everywhere. -/
theorem C90_reached {P : Measure Ω} [IsProbabilityMeasure P] {cs : Fin n → Spec.Axis} (hcs : Spec.Invertible cs)
    {f : Ω → Py (DeltaRet n)} {D : Ω → Fin n → ℝ} (hf : ∀ ω, f ω = .ok (.delta (D ω))) (hD : Measurable D)
    (hopen : ∀ U : Set (Fin n → ℝ), IsOpen U → U.Nonempty → 0 < P (D ⁻¹' U))
    {prob w : (Fin n → ℝ) → ℝ} {q : (Fin n → ℝ) → (Fin n → ℝ) → ℝ} {pair hastings : Bool} {start : Fin n → ℝ}
    {pscale : PSpec} (hst : Spec.Stored prob pscale w) (hw : Measurable w)
    (hj : ∀ x ω, Spec.Judgeable hastings pair pscale w q x (Spec.displaced cs x (D ω)))
    (A : Set (Fin n → ℝ)) (hA : IsOpen (Spec.untransformed cs ⁻¹' A)) (hne : (Spec.untransformed cs ⁻¹' A).Nonempty)
    (hpos : ∀ x ∈ A, 0 < w x) (l : OPQR (Row (Fin n → ℝ))) (s : Fin n → ℝ)
    (hl : Spec.At prob l (Spec.untransformed cs s)) (k : ℕ) :
    0 < Spec.arrives P (Spec.mover cs false f prob q pair hastings start pscale) (k + 1) l A := by
  classical
  rw [arrives_eq hcs hf hst hj A (k + 1) l s hl]
  set g := Spec.untransformed cs with hg
  have hgm : Measurable g := measurable_pi_iff.mpr fun i => (hcs i).2.comp (measurable_pi_apply i)
  have hwg : Measurable fun s => w (g s) := hw.comp hgm
  have hAm : MeasurableSet (g ⁻¹' A) := hA.measurableSet
  have hmv : Measurable fun p : (Fin n → ℝ) × Ω => p.1 + D p.2 := measurable_fst.add (hD.comp measurable_snd)
  have hFm : ∀ k, Measurable ((afterF P (fun s => w (g s)) fun s ω => s + D ω)^[k] ((g ⁻¹' A).indicator 1)) := by
    intro k
    induction k with
    | zero => exact measurable_one.indicator hAm
    | succ k ih =>
        rw [Function.iterate_succ_apply']
        exact afterF_measurable hwg hmv ih
  have hrat : ∀ s ω, 0 ≤ Spec.ratio (w (g s)) (w (g (s + D ω))) ∧ Spec.ratio (w (g s)) (w (g (s + D ω))) ≤ 1 :=
    fun s ω => ratio_bounds _ _ (stored_nonneg hst _)
  -- the summand is measurable
  have hm : ∀ (F : (Fin n → ℝ) → ENNReal), Measurable F → ∀ s, Measurable fun ω =>
      ENNReal.ofReal (Spec.ratio (w (g s)) (w (g (s + D ω)))) * F (s + D ω) +
        ENNReal.ofReal (1 - Spec.ratio (w (g s)) (w (g (s + D ω)))) * F s := by
    intro F hF s
    have h1 : Measurable fun ω => s + D ω := measurable_const.add hD
    have h2 : Measurable fun ω => Spec.ratio (w (g s)) (w (g (s + D ω))) :=
      ratio_measurable.comp (measurable_const.prodMk (hwg.comp h1))
    exact ((ENNReal.measurable_ofReal.comp h2).mul (hF.comp h1)).add
      ((ENNReal.measurable_ofReal.comp (measurable_const.sub h2)).mul measurable_const)
  induction k generalizing s l with
  | zero =>
      rw [Function.iterate_one]
      unfold afterF
      refine (lintegral_pos_iff_support (hm _ (measurable_one.indicator hAm) s)).mpr ?_
      have hU : IsOpen ((fun δ => s + δ) ⁻¹' (g ⁻¹' A)) := hA.preimage (continuous_const.add continuous_id)
      have hUne : ((fun δ => s + δ) ⁻¹' (g ⁻¹' A)).Nonempty := by
        obtain ⟨z, hz⟩ := hne
        exact ⟨z - s, by simpa using hz⟩
      refine lt_of_lt_of_le (hopen _ hU hUne) (measure_mono fun ω hω => ?_)
      have hω : s + D ω ∈ g ⁻¹' A := hω
      have hr : 0 < Spec.ratio (w (g s)) (w (g (s + D ω))) :=
        lt_min one_pos (div_pos (hpos _ hω) (lt_of_lt_of_le npz_pos (le_max_left _ _)))
      simp only [Function.mem_support, Set.indicator_of_mem hω, Pi.one_apply, mul_one]
      exact (lt_of_lt_of_le (ENNReal.ofReal_pos.mpr hr) le_self_add).ne'
  | succ k ih =>
      rw [Function.iterate_succ_apply']
      have hF : ∀ s, 0 < ((afterF P (fun s => w (g s)) fun s ω => s + D ω)^[k + 1] ((g ⁻¹' A).indicator 1)) s := by
        intro s
        exact ih ⟨none, some ⟨g s, .scalar (prob (g s))⟩, some ⟨g s, .scalar 0⟩, none⟩ s ⟨rfl, _, rfl⟩
      set F := (afterF P (fun s => w (g s)) fun s ω => s + D ω)^[k + 1] ((g ⁻¹' A).indicator 1)
      have hFmk : Measurable F := hFm (k + 1)
      unfold afterF
      refine (lintegral_pos_iff_support (hm F hFmk s)).mpr ?_
      have : Function.support (fun ω => ENNReal.ofReal (Spec.ratio (w (g s)) (w (g (s + D ω)))) * F (s + D ω) +
        ENNReal.ofReal (1 - Spec.ratio (w (g s)) (w (g (s + D ω)))) * F s) = Set.univ := by
        refine Set.eq_univ_of_forall fun ω => ?_
        simp only [Function.mem_support]
        obtain ⟨r0, r1⟩ := hrat s ω
        rcases r0.lt_or_eq with h | h
        · exact (lt_of_lt_of_le (ENNReal.mul_pos (ENNReal.ofReal_pos.mpr h).ne' (hF _).ne') le_self_add).ne'
        · rw [← h]
          simpa using (hF s).ne'
      rw [this, measure_univ]
      exact one_pos

/-! ### A function that only goes up -/

/-- 1 on the unit interval, 0 elsewhere. -/
noncomputable def unitBlock (x : Fin 1 → ℝ) : ℝ := if 0 ≤ x 0 ∧ x 0 < 1 then 1 else 0

theorem block_volume (a b : ℝ) : volume {s : Fin 1 → ℝ | a ≤ s 0 ∧ s 0 < b} = ENNReal.ofReal (b - a) := by
  have : {s : Fin 1 → ℝ | a ≤ s 0 ∧ s 0 < b} = Set.univ.pi fun _ => Set.Ico a b := by
    ext s
    simp [Set.mem_pi, Fin.forall_fin_one]
  rw [this, Real.volume_pi_Ico]
  simp

theorem block_measurable (a b : ℝ) : MeasurableSet {s : Fin 1 → ℝ | a ≤ s 0 ∧ s 0 < b} :=
  (measurableSet_le measurable_const (measurable_pi_apply 0)).inter
    (measurableSet_lt (measurable_pi_apply 0) measurable_const)

theorem unitBlock_eq : (fun x => ENNReal.ofReal (unitBlock x)) = ({s : Fin 1 → ℝ | 0 ≤ s 0 ∧ s 0 < 1}).indicator 1 := by
  classical
  funext x
  unfold unitBlock
  by_cases h : 0 ≤ x 0 ∧ x 0 < 1
  · rw [if_pos h, Set.indicator_of_mem (s := {s : Fin 1 → ℝ | 0 ≤ s 0 ∧ s 0 < 1}) h]; simp
  · rw [if_neg h, Set.indicator_of_notMem (s := {s : Fin 1 → ℝ | 0 ≤ s 0 ∧ s 0 < 1}) h]; simp

theorem unitBlock_measurable : Measurable unitBlock :=
  Measurable.ite (block_measurable 0 1) measurable_const measurable_const

theorem unitBlock_normal (x : Fin 1 → ℝ) : Spec.Normal (unitBlock x) := by
  unfold unitBlock
  split
  · right
    unfold npz
    norm_num
  · exact Or.inl rfl

theorem unitBlock_stored : Spec.Stored unitBlock (.flt 1) unitBlock :=
  ⟨⟨.lin 1, by simp [evalPscale], one_pos, fun _ => trivial, fun _ => by simp [Spec.value]⟩,
    fun x => by unfold unitBlock; split <;> norm_num⟩

end Probayes
