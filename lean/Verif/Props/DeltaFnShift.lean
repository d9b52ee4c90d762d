/-
C109: displacements that are more likely one way than the other, as in examples/mcmc/mcmc_prob6.py.
-/
import Verif.Props.DeltaFnUp
import Mathlib.Analysis.SpecialFunctions.Gaussian.GaussianIntegral
import Mathlib.MeasureTheory.Integral.Pi

namespace Probayes

open MeasureTheory

variable {n : ℕ} {Ω : Type}

/-! ### What is claimed -/

/-- The number that the rule compares the threshold with: the ratio of the targets, each times the number
stated for the move if a pair of functions is judged by the rule of Hastings; divisors are at least the
smallest normal float. -/
noncomputable def Spec.verdict (hastings pair : Bool) (w : (Fin n → ℝ) → ℝ) (q : (Fin n → ℝ) → (Fin n → ℝ) → ℝ)
    (x y : Fin n → ℝ) : ℝ :=
  let e := if hastings && pair then q x y else 1
  min 1 (w y * e / max npz (w x * e))

/-! ### One step -/

theorem shift_score {hastings pair : Bool} {pscale : PSpec} {w : (Fin n → ℝ) → ℝ}
    {q : (Fin n → ℝ) → (Fin n → ℝ) → ℝ} {x y : Fin n → ℝ} (hs : evalPscale pscale = .ok (.lin 1)) (hq : 0 < q x y)
    (r : Option (Row (Fin n → ℝ))) (hr : r = if pair then some ⟨y, .scalar (q x y)⟩ else none) :
    (if hastings then hastingsScores Row.prob (⟨some ⟨x, .scalar (w x)⟩, some ⟨y, .scalar (w y)⟩,
          some ⟨y, .scalar (q x y)⟩, r⟩ : OPQR (Row (Fin n → ℝ))) pscale
      else metropolisScores Row.prob (⟨some ⟨x, .scalar (w x)⟩, some ⟨y, .scalar (w y)⟩,
          some ⟨y, .scalar (q x y)⟩, r⟩ : OPQR (Row (Fin n → ℝ))) pscale) =
      .ok (some (Spec.verdict hastings pair w q x y)) := by
  have h1 : evalPscale (.flt 1) = .ok (.lin 1) := by simp [evalPscale]
  have hdiv : ∀ a b : ℝ, divProb a b (some (pscale, pscale)) (.flt 1) = .ok (a / max npz b) := by
    intro a b
    obtain ⟨z, hz, hv⟩ := C06_divProb_value a b pscale pscale (.flt 1) (.lin 1) (.lin 1) (.lin 1) hs hs h1
      (by simp [PSpec.truthy]) one_pos one_pos one_pos trivial trivial trivial
    simp only [Spec.value, one_mul] at hv
    rw [hz, hv]
  have hc : rescale (q x y) pscale (.flt 1) = .ok (q x y) := by
    simp [rescale, hs, h1, bind, Except.bind, pure, Except.pure, rescaleE]
  subst hr
  cases hastings <;> cases pair <;>
    simp [metropolisScores, hastingsScores, hdiv, hc, not_le.mpr hq, Spec.verdict, bind, Except.bind, pure, Except.pure]

/-- A sample from `x` displaced by `δ`. -/
theorem shift_step (cs : Fin n → Spec.Axis) (hcs : ∀ i, (cs i).uf = none) (f : Ω → Py (DeltaRet n)) (w : (Fin n → ℝ) → ℝ)
    (q : (Fin n → ℝ) → (Fin n → ℝ) → ℝ) (hq : ∀ x y, 0 < q x y) (pair hastings : Bool) (start : Fin n → ℝ)
    (pscale : PSpec) (hs : evalPscale pscale = .ok (.lin 1)) (l : OPQR (Row (Fin n → ℝ))) (x δ : Fin n → ℝ) (ω : DDraw Ω)
    (hl : Spec.At w l x) (hf : f ω.d = .ok (.delta δ)) :
    ∃ l' smp, nextCore (Spec.mover cs false f w q pair hastings start pscale) (some l) ω () =
        ((), some l', .ok (.sample smp)) ∧
      (ω.t ≤ Spec.verdict hastings pair w q x (x + δ) → Spec.At w l' (x + δ)) ∧
      (¬ ω.t ≤ Spec.verdict hastings pair w q x (x + δ) → l' = l) := by
  have hy : deltaStep (fun i => .make (cs i).set) (fun i => (cs i).uf) false f x ω = .ok (x + δ) := by
    rw [deltaStep_ok cs f x δ (fun i => by rw [hcs i]; rfl) ω hf]
    congr 1
    funext i
    simp [Spec.displaced, hcs i, UFun.inv, UFun.fwd]
  set y := x + δ with hyd
  obtain ⟨hp, q', hq'⟩ := hl
  have hsc := shift_score (hastings := hastings) (w := w) hs (hq x y) (if pair then some ⟨y, .scalar (q x y)⟩ else none) rfl
  set r : Option (Row (Fin n → ℝ)) := if pair then some ⟨y, .scalar (q x y)⟩ else none with hr
  have hsmp : sampleTran (funOps (deltaStep (fun i => .make (cs i).set) (fun i => (cs i).uf) false f) w q pair
      start) (some l) ω () = ((), .ok ⟨some ⟨x, .scalar (w x)⟩, some ⟨y, .scalar (w y)⟩,
        some ⟨y, .scalar (q x y)⟩, r⟩) := by
    cases pair <;>
      simp [sampleTran, funOps, hp, hq', hy, sampleFinish, bind, Except.bind, pure, Except.pure, hr]
  by_cases ht : ω.t ≤ Spec.verdict hastings pair w q x y
  · exact ⟨⟨some ⟨x, .scalar (w x)⟩, some ⟨y, .scalar (w y)⟩, some ⟨y, .scalar (q x y)⟩, r⟩, _,
      by simp [nextCore, Spec.mover, funProc, hsmp, judge, evalScores,
        evalUpdate, hsc, walkUpdate, metropolisUpdate, ht, bind, Except.bind, pure, Except.pure]; rfl,
      fun _ => ⟨rfl, _, rfl⟩, fun h => absurd ht h⟩
  · exact ⟨l, _,
      by simp [nextCore, Spec.mover, funProc, hsmp, judge, evalScores,
        evalUpdate, hsc, walkUpdate, metropolisUpdate, ht, bind, Except.bind, pure, Except.pure]; rfl,
      fun h => absurd h ht, fun _ => rfl⟩

theorem verdict_bounds {hastings pair : Bool} {w : (Fin n → ℝ) → ℝ} {q : (Fin n → ℝ) → (Fin n → ℝ) → ℝ}
    (hw : ∀ x, 0 ≤ w x) (hq : ∀ x y, 0 < q x y) (x y : Fin n → ℝ) :
    0 ≤ Spec.verdict hastings pair w q x y ∧ Spec.verdict hastings pair w q x y ≤ 1 := by
  refine ⟨le_min zero_le_one (div_nonneg (mul_nonneg (hw y) ?_) (npz_pos.le.trans (le_max_left _ _))), min_le_left _ _⟩
  split
  · exact (hq x y).le
  · exact zero_le_one

/-- The flow from `x` to `y` is at most that back, if the displacement back is more likely. -/
theorem flow_le {a b e e' u v : ℝ} (ha : 0 ≤ a) (hab : a < b) (he : 0 < e) (he' : 0 < e') (hae : a * e ≤ b * e')
    (hu : 0 ≤ u) (hv : 0 ≤ v) :
    a * (u * min 1 (v * e / max npz (u * e))) ≤ b * (v * min 1 (u * e' / max npz (v * e'))) := by
  have hM : 0 < max npz (u * e) := npz_pos.trans_le (le_max_left _ _)
  have hM' : 0 < max npz (v * e') := npz_pos.trans_le (le_max_left _ _)
  have h1 : a * (u * min 1 (v * e / max npz (u * e))) ≤ a * u :=
    mul_le_mul_of_nonneg_left (mul_le_of_le_one_right hu (min_le_left _ _)) ha
  have h2 : a * (u * min 1 (v * e / max npz (u * e))) ≤ a * (u * (v * e / max npz (u * e))) :=
    mul_le_mul_of_nonneg_left (mul_le_mul_of_nonneg_left (min_le_right _ _) hu) ha
  have h3 : u * (v * e / max npz (u * e)) ≤ v := by
    rw [← mul_div_assoc, div_le_iff₀ hM]
    calc u * (v * e) = v * (u * e) := by ring
      _ ≤ v * max npz (u * e) := mul_le_mul_of_nonneg_left (le_max_right _ _) hv
  rcases min_choice 1 (u * e' / max npz (v * e')) with h | h
  · rw [h, mul_one]
    exact h2.trans ((mul_le_mul_of_nonneg_left h3 ha).trans (mul_le_mul_of_nonneg_right hab.le hv))
  · rw [h]
    rcases le_total npz (v * e') with h4 | h4
    · have hv' : 0 < v := pos_of_mul_pos_left (npz_pos.trans_le h4) he'.le
      rw [max_eq_right h4]
      have : b * (v * (u * e' / (v * e'))) = b * u := by
        field_simp
      rw [this]
      exact h1.trans (mul_le_mul_of_nonneg_right hab.le hu)
    · rw [max_eq_left h4]
      refine h2.trans ?_
      have h5 : v * e / max npz (u * e) ≤ v * e / npz :=
        div_le_div_of_nonneg_left (mul_nonneg hv he.le) npz_pos (le_max_left _ _)
      calc a * (u * (v * e / max npz (u * e))) ≤ a * (u * (v * e / npz)) :=
            mul_le_mul_of_nonneg_left (mul_le_mul_of_nonneg_left h5 hu) ha
        _ = (a * e) * (u * v / npz) := by ring
        _ ≤ (b * e') * (u * v / npz) := mul_le_mul_of_nonneg_right hae (div_nonneg (mul_nonneg hu hv) npz_pos.le)
        _ = b * (v * (u * e' / npz)) := by ring

theorem flow_lt {a b e e' u v : ℝ} (ha : 0 ≤ a) (hab : a < b) (he : 0 < e) (he' : 0 < e') (hu : 0 < u) (hv : npz ≤ v * e') :
    a * (u * min 1 (v * e / max npz (u * e))) < b * (v * min 1 (u * e' / max npz (v * e'))) := by
  have hv' : 0 < v := pos_of_mul_pos_left (npz_pos.trans_le hv) he'.le
  have hM : 0 < max npz (u * e) := npz_pos.trans_le (le_max_left _ _)
  have h1 : a * (u * min 1 (v * e / max npz (u * e))) ≤ a * u :=
    mul_le_mul_of_nonneg_left (mul_le_of_le_one_right hu.le (min_le_left _ _)) ha
  have h2 : a * (u * min 1 (v * e / max npz (u * e))) ≤ a * (u * (v * e / max npz (u * e))) :=
    mul_le_mul_of_nonneg_left (mul_le_mul_of_nonneg_left (min_le_right _ _) hu.le) ha
  have h3 : u * (v * e / max npz (u * e)) ≤ v := by
    rw [← mul_div_assoc, div_le_iff₀ hM]
    calc u * (v * e) = v * (u * e) := by ring
      _ ≤ v * max npz (u * e) := mul_le_mul_of_nonneg_left (le_max_right _ _) hv'.le
  rw [max_eq_right hv]
  rcases min_choice 1 (u * e' / (v * e')) with h | h
  · rw [h, mul_one]
    exact (h2.trans (mul_le_mul_of_nonneg_left h3 ha)).trans_lt (mul_lt_mul_of_pos_right hab hv')
  · rw [h]
    have : b * (v * (u * e' / (v * e'))) = b * u := by
      field_simp
    rw [this]
    exact h1.trans_lt (mul_lt_mul_of_pos_right hab hu)

/-! ### The drift -/

variable [MeasurableSpace Ω]

theorem arrives_one {P : Measure Ω} {cs : Fin n → Spec.Axis} (hcs : ∀ i, (cs i).uf = none) {f : Ω → Py (DeltaRet n)}
    {D : Ω → Fin n → ℝ} (hf : ∀ ω, f ω = .ok (.delta (D ω))) {w : (Fin n → ℝ) → ℝ} (hw : ∀ x, 0 ≤ w x)
    {q : (Fin n → ℝ) → (Fin n → ℝ) → ℝ} (hq : ∀ x y, 0 < q x y) {pair hastings : Bool} {start : Fin n → ℝ}
    {pscale : PSpec} (hs : evalPscale pscale = .ok (.lin 1)) (A : Set (Fin n → ℝ)) (l : OPQR (Row (Fin n → ℝ)))
    (x : Fin n → ℝ) (hl : Spec.At w l x) :
    Spec.arrives P (Spec.mover cs false f w q pair hastings start pscale) 1 l A =
      ∫⁻ ω, (ENNReal.ofReal (Spec.verdict hastings pair w q x (x + D ω)) * A.indicator 1 (x + D ω) +
        ENNReal.ofReal (1 - Spec.verdict hastings pair w q x (x + D ω)) * A.indicator 1 x) ∂P := by
  classical
  simp only [Spec.arrives]
  congr 1
  funext d
  have hzero : ∀ (l' : OPQR (Row (Fin n → ℝ))) z, Spec.At w l' z →
      (if ∃ x ∈ A, l'.p.map Row.val = some x then (1 : ENNReal) else 0) = A.indicator 1 z := by
    intro l' z h
    simp only [h.1, Option.map_some, Option.some.injEq]
    by_cases hz : z ∈ A
    · rw [if_pos ⟨_, hz, rfl⟩, Set.indicator_of_mem hz]; rfl
    · rw [if_neg (by rintro ⟨y, hy, rfl⟩; exact hz hy), Set.indicator_of_notMem hz]
  have hstep : ∀ t, (if ∃ x ∈ A, Option.map Row.val
        ((nextCore (Spec.mover cs false f w q pair hastings start pscale) (some l) ⟨d, t⟩ ()).2.1.getD l).p = some x
        then (1 : ENNReal) else 0) =
      if t ≤ Spec.verdict hastings pair w q x (x + D d) then A.indicator 1 (x + D d) else A.indicator 1 x := by
    intro t
    obtain ⟨l', smp, h1, h2, h3⟩ := shift_step cs hcs f w q hq pair hastings start pscale hs l x (D d) ⟨d, t⟩ hl (hf d)
    rw [h1]
    simp only [Option.getD_some]
    by_cases ht : t ≤ Spec.verdict hastings pair w q x (x + D d)
    · rw [if_pos ht]
      exact hzero l' _ (h2 ht)
    · rw [if_neg ht, h3 ht]
      exact hzero l x hl
  simp only [hstep]
  obtain ⟨r0, r1⟩ := verdict_bounds (hastings := hastings) (pair := pair) hw hq x (x + D d)
  exact mean_le _ _ _ r0 r1

/-- C109: if of every displacement that raises a coordinate the opposite is more likely, then the part of
the target where that coordinate is below a bound gains in the first step, by either rule, for single
functions and for pairs, whatever the target. -/
theorem C109_drift {P : Measure Ω} [IsProbabilityMeasure P] {cs : Fin n → Spec.Axis} (hcs : ∀ i, (cs i).uf = none)
    {f : Ω → Py (DeltaRet n)} {D : Ω → Fin n → ℝ} (hf : ∀ ω, f ω = .ok (.delta (D ω))) (hD : Measurable D)
    {g : (Fin n → ℝ) → ℝ} (hg : Measurable g) (hg0 : ∀ δ, 0 ≤ g δ)
    (hlaw : P.map D = volume.withDensity fun δ => ENNReal.ofReal (g δ))
    {w : (Fin n → ℝ) → ℝ} (hwm : Measurable w) (hw : ∀ x, 0 ≤ w x) (hfin : ∫⁻ x, ENNReal.ofReal (w x) ≠ ⊤)
    {q : (Fin n → ℝ) → (Fin n → ℝ) → ℝ} (hqm : Measurable fun p : (Fin n → ℝ) × (Fin n → ℝ) => q p.1 p.2)
    (hq : ∀ x y, 0 < q x y) (pair hastings : Bool) (start : Fin n → ℝ) {pscale : PSpec}
    (hs : evalPscale pscale = .ok (.lin 1)) (i : Fin n) (hlean : ∀ δ, 0 < δ i → g δ < g (-δ))
    (hstated : hastings = true → pair = true → ∀ x y, x i < y i → g (y - x) * q x y ≤ g (x - y) * q y x) (c : ℝ)
    (hpos : 0 < (volume.prod volume) {p : (Fin n → ℝ) × (Fin n → ℝ) | p.1 i < c ∧ c ≤ p.2 i ∧ 0 < w p.1 ∧
      npz ≤ w p.2 ∧ npz ≤ w p.2 * q p.2 p.1})
    (l : (Fin n → ℝ) → OPQR (Row (Fin n → ℝ))) (hl : ∀ x, Spec.At w (l x) x) :
    ∫⁻ s in {s | s i < c}, ENNReal.ofReal (w s) < ∫⁻ s, ENNReal.ofReal (w s) *
      Spec.arrives P (Spec.mover cs false f w q pair hastings start pscale) 1 (l s) {s | s i < c} := by
  classical
  set A : Set (Fin n → ℝ) := {s | s i < c} with hA
  have hAm : MeasurableSet A := measurableSet_lt (measurable_pi_apply i) measurable_const
  set s := Spec.verdict hastings pair w q with hsd
  have hb : ∀ x y, 0 ≤ s x y ∧ s x y ≤ 1 := verdict_bounds hw hq
  set e : (Fin n → ℝ) → (Fin n → ℝ) → ℝ := fun x y => if hastings && pair then q x y else 1 with he
  have hse : ∀ x y, s x y = min 1 (w y * e x y / max npz (w x * e x y)) := fun x y => rfl
  have he0 : ∀ x y, 0 < e x y := by
    intro x y
    simp only [he]
    split
    · exact hq x y
    · exact one_pos
  have hem : Measurable fun p : (Fin n → ℝ) × (Fin n → ℝ) => e p.1 p.2 := by
    simp only [he]
    split
    · exact hqm
    · exact measurable_const
  have hw1 : Measurable fun p : (Fin n → ℝ) × (Fin n → ℝ) => w p.1 := hwm.comp measurable_fst
  have hw2 : Measurable fun p : (Fin n → ℝ) × (Fin n → ℝ) => w p.2 := hwm.comp measurable_snd
  have hg12 : Measurable fun p : (Fin n → ℝ) × (Fin n → ℝ) => g (p.2 - p.1) := hg.comp (measurable_snd.sub measurable_fst)
  have hsm : Measurable fun p : (Fin n → ℝ) × (Fin n → ℝ) => s p.1 p.2 := by
    simp only [hse]
    exact measurable_const.min ((hw2.mul hem).div (measurable_const.max (hw1.mul hem)))
  -- the flow between two points, and what stays
  let J : (Fin n → ℝ) → (Fin n → ℝ) → ENNReal := fun x y => ENNReal.ofReal (g (y - x) * (w x * s x y))
  let N : (Fin n → ℝ) → (Fin n → ℝ) → ENNReal := fun x y => ENNReal.ofReal (g (y - x) * (w x * (1 - s x y)))
  have hJm : Measurable fun p : (Fin n → ℝ) × (Fin n → ℝ) => J p.1 p.2 := (hg12.mul (hw1.mul hsm)).ennreal_ofReal
  have hNm : Measurable fun p : (Fin n → ℝ) × (Fin n → ℝ) => N p.1 p.2 :=
    (hg12.mul (hw1.mul (measurable_const.sub hsm))).ennreal_ofReal
  have hJm' : Measurable fun p : (Fin n → ℝ) × (Fin n → ℝ) => J p.2 p.1 := hJm.comp measurable_swap
  let χ : (Fin n → ℝ) → ENNReal := A.indicator 1
  let χ' : (Fin n → ℝ) → ENNReal := Aᶜ.indicator 1
  have hχ : Measurable χ := measurable_one.indicator hAm
  have hχ' : Measurable χ' := measurable_one.indicator hAm.compl
  have hχ1 : ∀ x, χ x + χ' x = 1 := by
    intro x
    by_cases hx : x ∈ A
    · simp [χ, χ', hx]
    · simp [χ, χ', hx]
  have hJN : ∀ x y, J x y + N x y = ENNReal.ofReal (w x) * ENNReal.ofReal (g (y - x)) := by
    intro x y
    rw [← ENNReal.ofReal_add (mul_nonneg (hg0 _) (mul_nonneg (hw x) (hb x y).1))
      (mul_nonneg (hg0 _) (mul_nonneg (hw x) (by linarith [(hb x y).2]))), ← ENNReal.ofReal_mul (hw x)]
    congr 1
    ring
  have hJy : ∀ x, Measurable fun y => J x y := fun x => hJm.comp (measurable_const.prodMk measurable_id)
  have hgy : ∀ x : Fin n → ℝ, Measurable fun y => ENNReal.ofReal (g (y - x)) :=
    fun x => (hg.comp (measurable_id.sub measurable_const)).ennreal_ofReal
  have hgone : ∀ x : Fin n → ℝ, ∫⁻ y, ENNReal.ofReal (g (y - x)) = 1 := by
    intro x
    have h1 : ∫⁻ δ, ENNReal.ofReal (g δ) = 1 := by
      have : (P.map D) Set.univ = 1 := by
        rw [Measure.map_apply hD MeasurableSet.univ]
        simp
      rw [hlaw, withDensity_apply _ MeasurableSet.univ, Measure.restrict_univ] at this
      exact this
    rw [← h1]
    exact lintegral_sub_right_eq_self (fun δ => ENNReal.ofReal (g δ)) x
  -- what the process does in one step
  have harr : ∀ x, ENNReal.ofReal (w x) *
      Spec.arrives P (Spec.mover cs false f w q pair hastings start pscale) 1 (l x) A =
      (∫⁻ y, J x y * χ y) + ∫⁻ y, N x y * χ x := by
    intro x
    rw [arrives_one hcs hf hw hq hs A (l x) x (hl x)]
    have hFm : Measurable fun δ => ENNReal.ofReal (s x (x + δ)) * χ (x + δ) + ENNReal.ofReal (1 - s x (x + δ)) * χ x := by
      have h1 : Measurable fun δ : Fin n → ℝ => s x (x + δ) :=
        hsm.comp (measurable_const.prodMk (measurable_const.add measurable_id))
      exact (h1.ennreal_ofReal.mul (hχ.comp (measurable_const.add measurable_id))).add
        ((measurable_const.sub h1).ennreal_ofReal.mul measurable_const)
    have h2 : ∫⁻ ω, (ENNReal.ofReal (s x (x + D ω)) * χ (x + D ω) + ENNReal.ofReal (1 - s x (x + D ω)) * χ x) ∂P =
        ∫⁻ δ, (ENNReal.ofReal (s x (x + δ)) * χ (x + δ) + ENNReal.ofReal (1 - s x (x + δ)) * χ x) ∂(P.map D) :=
      (lintegral_map hFm hD).symm
    rw [h2, hlaw, lintegral_withDensity_eq_lintegral_mul _ hg.ennreal_ofReal hFm]
    rw [← lintegral_sub_right_eq_self _ x, ← lintegral_const_mul _ (by
      exact ((hg.ennreal_ofReal.mul hFm).comp (measurable_id.sub measurable_const)))]
    have hJχ : Measurable fun y => J x y * χ y := (hJy x).mul hχ
    rw [← lintegral_add_left hJχ]
    congr 1
    funext y
    have : x + (y - x) = y := by abel
    simp only [Pi.mul_apply, this]
    simp only [J, N, ENNReal.ofReal_mul (hg0 _), ENNReal.ofReal_mul (hw x)]
    ring
  have hbefore : ∫⁻ x in A, ENNReal.ofReal (w x) = ∫⁻ x, ((∫⁻ y, J x y * χ x) + ∫⁻ y, N x y * χ x) := by
    rw [← lintegral_indicator hAm]
    congr 1
    funext x
    have hJχ : Measurable fun y => J x y * χ x := (hJy x).mul measurable_const
    rw [← lintegral_add_left hJχ]
    simp only [← add_mul, hJN]
    rw [lintegral_mul_const _ ((hgy x).const_mul _),
      lintegral_const_mul _ (hgy x), hgone, mul_one]
    by_cases hx : x ∈ A
    · simp [χ, hx]
    · simp [χ, hx]
  simp only [harr]
  rw [hbefore]
  have mJy : Measurable fun p : (Fin n → ℝ) × (Fin n → ℝ) => J p.1 p.2 * χ p.2 := hJm.mul (hχ.comp measurable_snd)
  have mJx : Measurable fun p : (Fin n → ℝ) × (Fin n → ℝ) => J p.1 p.2 * χ p.1 := hJm.mul (hχ.comp measurable_fst)
  have mNx : Measurable fun p : (Fin n → ℝ) × (Fin n → ℝ) => N p.1 p.2 * χ p.1 := hNm.mul (hχ.comp measurable_fst)
  rw [lintegral_add_left mJy.lintegral_prod_right', lintegral_add_left mJx.lintegral_prod_right']
  have hfin' : ∫⁻ x, ∫⁻ y, (J x y + N x y) ≠ ⊤ := by
    have : ∀ x, ∫⁻ y, (J x y + N x y) = ENNReal.ofReal (w x) := by
      intro x
      simp only [hJN]
      rw [lintegral_const_mul _ (hgy x), hgone, mul_one]
    simp only [this]
    exact hfin
  have hχle : ∀ x, χ x ≤ 1 := fun x => by rw [← hχ1 x]; exact le_self_add
  have hχle' : ∀ x, χ' x ≤ 1 := fun x => by rw [← hχ1 x]; exact le_add_self
  have hNfin : ∫⁻ x, ∫⁻ y, N x y * χ x ≠ ⊤ := by
    refine ne_top_of_le_ne_top hfin' (lintegral_mono fun x => lintegral_mono fun y => ?_)
    exact (mul_le_of_le_one_right' (hχle x)).trans le_add_self
  refine ENNReal.add_lt_add_right hNfin ?_
  -- flows within the set cancel; those across its boundary are compared
  have split_y : ∫⁻ x, ∫⁻ y, J x y * χ y = (∫⁻ x, ∫⁻ y, J x y * (χ x * χ y)) + ∫⁻ x, ∫⁻ y, J x y * (χ' x * χ y) := by
    have m1 : Measurable fun p : (Fin n → ℝ) × (Fin n → ℝ) => J p.1 p.2 * (χ p.1 * χ p.2) :=
      hJm.mul ((hχ.comp measurable_fst).mul (hχ.comp measurable_snd))
    rw [← lintegral_add_left m1.lintegral_prod_right']
    congr 1
    funext x
    have m1x : Measurable fun y => J x y * (χ x * χ y) := (hJy x).mul (measurable_const.mul hχ)
    show _ = (∫⁻ y, J x y * (χ x * χ y)) + _
    rw [← lintegral_add_left m1x]
    congr 1
    funext y
    rw [← mul_add, ← add_mul, hχ1, one_mul]
  have split_x : ∫⁻ x, ∫⁻ y, J x y * χ x = (∫⁻ x, ∫⁻ y, J x y * (χ x * χ y)) + ∫⁻ x, ∫⁻ y, J x y * (χ x * χ' y) := by
    have m1 : Measurable fun p : (Fin n → ℝ) × (Fin n → ℝ) => J p.1 p.2 * (χ p.1 * χ p.2) :=
      hJm.mul ((hχ.comp measurable_fst).mul (hχ.comp measurable_snd))
    rw [← lintegral_add_left m1.lintegral_prod_right']
    congr 1
    funext x
    have m1x : Measurable fun y => J x y * (χ x * χ y) := (hJy x).mul (measurable_const.mul hχ)
    show _ = (∫⁻ y, J x y * (χ x * χ y)) + _
    rw [← lintegral_add_left m1x]
    congr 1
    funext y
    rw [← mul_add, ← mul_add, hχ1, mul_one]
  rw [split_y, split_x]
  have hJfin : ∫⁻ x, ∫⁻ y, J x y * (χ x * χ y) ≠ ⊤ := by
    refine ne_top_of_le_ne_top hfin' (lintegral_mono fun x => lintegral_mono fun y => ?_)
    exact (mul_le_of_le_one_right' (mul_le_one' (hχle x) (hχle y))).trans le_self_add
  refine ENNReal.add_lt_add_left hJfin ?_
  have m2 : Measurable fun p : (Fin n → ℝ) × (Fin n → ℝ) => J p.1 p.2 * (χ' p.1 * χ p.2) :=
    hJm.mul ((hχ'.comp measurable_fst).mul (hχ.comp measurable_snd))
  have m3 : Measurable fun p : (Fin n → ℝ) × (Fin n → ℝ) => J p.1 p.2 * (χ p.1 * χ' p.2) :=
    hJm.mul ((hχ.comp measurable_fst).mul (hχ'.comp measurable_snd))
  have m4 : Measurable fun p : (Fin n → ℝ) × (Fin n → ℝ) => J p.2 p.1 * (χ' p.2 * χ p.1) := m2.comp measurable_swap
  rw [lintegral_lintegral_swap (f := fun x y => J x y * (χ' x * χ y)) m2.aemeasurable]
  rw [lintegral_lintegral (f := fun x y => J x y * (χ x * χ' y)) m3.aemeasurable,
    lintegral_lintegral (f := fun y x => J x y * (χ' x * χ y)) m4.aemeasurable]
  have hcomp : ∀ x y, x i < y i → J x y ≤ J y x := by
    intro x y hxy
    refine ENNReal.ofReal_le_ofReal ?_
    have hab : g (y - x) < g (x - y) := by
      have := hlean (y - x) (by simpa using hxy)
      rwa [neg_sub] at this
    rw [hse, hse]
    refine flow_le (hg0 _) hab (he0 x y) (he0 y x) ?_ (hw x) (hw y)
    simp only [he]
    split
    · rename_i h
      rw [Bool.and_eq_true] at h
      exact hstated h.1 h.2 x y hxy
    · rw [mul_one, mul_one]
      exact hab.le
  refine lintegral_strict_mono_of_ae_le_of_ae_lt_on m4.aemeasurable ?_ (Filter.Eventually.of_forall ?_) hpos.ne'
    (Filter.Eventually.of_forall ?_)
  · rw [← lintegral_lintegral (f := fun x y => J x y * (χ x * χ' y)) m3.aemeasurable]
    refine ne_top_of_le_ne_top hfin' (lintegral_mono fun x => lintegral_mono fun y => ?_)
    exact (mul_le_of_le_one_right' (mul_le_one' (hχle x) (hχle' y))).trans le_self_add
  · rintro ⟨x, y⟩
    show J x y * (χ x * χ' y) ≤ J y x * (χ' y * χ x)
    by_cases hx : x ∈ A
    · by_cases hy : y ∈ A
      · simp [χ', hy]
      · rw [mul_comm (χ' y)]
        have h1 : x i < c := hx
        have h2 : ¬ y i < c := hy
        exact mul_le_mul' (hcomp x y (by linarith)) le_rfl
    · simp [χ, hx]
  · rintro ⟨x, y⟩ ⟨h1, h2, h3, h4, h5⟩
    show J x y * (χ x * χ' y) < J y x * (χ' y * χ x)
    have hx : x ∈ A := h1
    have hy : y ∉ A := not_lt.mpr h2
    have hab : g (y - x) < g (x - y) := by
      have := hlean (y - x) (by simpa using h1.trans_le h2)
      rwa [neg_sub] at this
    simp only [χ, χ', hx, hy, Set.indicator_of_mem, Set.mem_compl_iff, not_false_eq_true, Pi.one_apply, mul_one]
    have hlt : g (y - x) * (w x * s x y) < g (x - y) * (w y * s y x) := by
      rw [hse, hse]
      refine flow_lt (hg0 _) hab (he0 x y) (he0 y x) h3 ?_
      simp only [he]
      split
      · exact h5
      · rw [mul_one]; exact h4
    exact (ENNReal.ofReal_lt_ofReal_iff_of_nonneg (mul_nonneg (hg0 _) (mul_nonneg (hw x) (hb x y).1))).2 hlt

end Probayes
