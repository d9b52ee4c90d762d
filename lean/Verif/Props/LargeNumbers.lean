/-
C116: the chance that the proportion of samples of a random walk strays from the part of the target.
-/
import Verif.Props.AnyTargetFreq

namespace Probayes

open MeasureTheory Filter Topology

variable {n : ℕ} {Ω : Type} [MeasurableSpace Ω]

/-! ### Specification -/

/-- The chance, over the draws of `k` further samples, that the number of samples in `A`, of which there are `m` so far,
is in `E`. -/
noncomputable def Spec.counts (P : Measure Ω) (R : Proc Unit (Row (Fin n → ℝ)) (DDraw Ω)) (A : _root_.Set (Fin n → ℝ))
    (E : _root_.Set ℕ) : ℕ → OPQR (Row (Fin n → ℝ)) → ℕ → ENNReal
  | 0, _, m => open Classical in if m ∈ E then 1 else 0
  | k + 1, l, m => ∫⁻ d, Spec.mean (fun t =>
      let l' := (nextCore R (some l) ⟨d, t⟩ ()).2.1.getD l
      Spec.counts P R A E k l' (open Classical in if ∃ x ∈ A, l'.p.map Row.val = some x then m + 1 else m)) ∂P

/-- The numbers of samples, out of `N`, whose proportion differs from `π` by `ε` or more. -/
def Spec.Far (π ε : ℝ) (N : ℕ) : _root_.Set ℕ := {m | ε ≤ |(m : ℝ) / N - π|}

/-- The numbers of samples, out of `N`, whose proportion differs from `π` by less than `ε`. -/
def Spec.Near (π ε : ℝ) (N : ℕ) : _root_.Set ℕ := {m | |(m : ℝ) / N - π| < ε}

/-! ### From mean squares to chances -/

theorem strays_squared (P : Measure Ω) (R : Proc Unit (Row (Fin n → ℝ)) (DDraw Ω)) (A : Set (Fin n → ℝ)) (π : ℝ) {ε : ℝ}
    (hε : 0 < ε) {N : ℕ} (hN : 0 < N) (k : ℕ) (l : OPQR (Row (Fin n → ℝ))) (m : ℕ) :
    Spec.counts P R A (Spec.Far π ε N) k l m * ENNReal.ofReal ((ε * N) ^ 2) ≤ Spec.squared P R A π k l (m - π * (N - k)) := by
  induction k generalizing l m with
  | zero =>
    unfold Spec.counts Spec.squared
    split
    · next h =>
      rw [one_mul]
      refine ENNReal.ofReal_le_ofReal ?_
      have hN' : (0 : ℝ) < N := by exact_mod_cast hN
      have h1 : (m : ℝ) - π * (N - (0 : ℕ)) = (m / N - π) * N := by
        rw [Nat.cast_zero, sub_zero]
        field_simp
      rw [h1, mul_pow, mul_pow, ← sq_abs ((m : ℝ) / N - π)]
      exact mul_le_mul_of_nonneg_right (pow_le_pow_left₀ hε.le h 2) (sq_nonneg _)
    · rw [zero_mul]
      exact zero_le
  | succ k ih =>
    unfold Spec.counts Spec.squared Spec.mean
    rw [← lintegral_mul_const' _ _ ENNReal.ofReal_ne_top]
    refine lintegral_mono fun d => ?_
    dsimp only
    rw [← lintegral_mul_const' _ _ ENNReal.ofReal_ne_top]
    refine lintegral_mono fun t => ?_
    dsimp only
    refine (ih _ _).trans (le_of_eq ?_)
    congr 1
    split
    · push_cast
      ring
    · push_cast
      ring

theorem strays_le (P : Measure Ω) (R : Proc Unit (Row (Fin n → ℝ)) (DDraw Ω)) (A : Set (Fin n → ℝ)) (π : ℝ) {ε : ℝ}
    (hε : 0 < ε) {N : ℕ} (hN : 0 < N) (l : OPQR (Row (Fin n → ℝ))) :
    Spec.counts P R A (Spec.Far π ε N) N l 0 ≤ Spec.squared P R A π N l 0 / (N : ENNReal) ^ 2 / ENNReal.ofReal (ε ^ 2) := by
  have h := strays_squared P R A π hε hN N l 0
  rw [sub_self, mul_zero, Nat.cast_zero, sub_zero, mul_pow, ENNReal.ofReal_mul (by positivity),
    ENNReal.ofReal_pow (Nat.cast_nonneg N), ENNReal.ofReal_natCast] at h
  have h0 : (N : ENNReal) ^ 2 ≠ 0 := pow_ne_zero _ (by exact_mod_cast hN.ne')
  have ht : (N : ENNReal) ^ 2 ≠ ⊤ := ENNReal.pow_ne_top (ENNReal.natCast_ne_top N)
  have he : ENNReal.ofReal (ε ^ 2) ≠ 0 := by
    rw [Ne, ENNReal.ofReal_eq_zero, not_le]
    positivity
  rw [ENNReal.le_div_iff_mul_le (Or.inl he) (Or.inl ENNReal.ofReal_ne_top),
    ENNReal.le_div_iff_mul_le (Or.inl h0) (Or.inl ht), mul_assoc]
  exact h

theorem strays_tendsto (P : Measure Ω) (R : Proc Unit (Row (Fin n → ℝ)) (DDraw Ω)) (A : Set (Fin n → ℝ)) (π : ℝ) {ε : ℝ}
    (hε : 0 < ε) (l : OPQR (Row (Fin n → ℝ)))
    (h : Tendsto (fun N : ℕ => Spec.squared P R A π N l 0 / (N : ENNReal) ^ 2) atTop (𝓝 0)) :
    Tendsto (fun N : ℕ => Spec.counts P R A (Spec.Far π ε N) N l 0) atTop (𝓝 0) := by
  have he : ENNReal.ofReal (ε ^ 2) ≠ 0 := by
    rw [Ne, ENNReal.ofReal_eq_zero, not_le]
    positivity
  have h1 := ENNReal.Tendsto.div_const (b := ENNReal.ofReal (ε ^ 2)) h (Or.inr he)
  rw [ENNReal.zero_div] at h1
  refine tendsto_of_tendsto_of_tendsto_of_le_of_le' tendsto_const_nhds h1 (Eventually.of_forall fun _ => zero_le) ?_
  filter_upwards [eventually_gt_atTop 0] with N hN
  exact strays_le P R A π hε hN l

/-! ### Chances add up -/

/-- What `Spec.counts` is, of the place. -/
noncomputable def countF (P : Measure Ω) (D : Ω → Fin n → ℝ) (v : (Fin n → ℝ) → ℝ) (B : Set (Fin n → ℝ)) (E : Set ℕ) :
    ℕ → ℕ → (Fin n → ℝ) → ENNReal
  | 0, m, _ => open Classical in if m ∈ E then 1 else 0
  | k + 1, m, s => afterF P v (fun s ω => s + D ω)
      (fun z => countF P D v B E k (open Classical in if z ∈ B then m + 1 else m) z) s

theorem countF_next (P : Measure Ω) (D : Ω → Fin n → ℝ) (v : (Fin n → ℝ) → ℝ) {B : Set (Fin n → ℝ)}
    (hB : MeasurableSet B) (E : Set ℕ) (k m : ℕ) (h : ∀ m, Measurable (countF P D v B E k m)) :
    Measurable fun z => countF P D v B E k (open Classical in if z ∈ B then m + 1 else m) z := by
  classical
  have e' : (fun z => countF P D v B E k (if z ∈ B then m + 1 else m) z) =
      fun z => if z ∈ B then countF P D v B E k (m + 1) z else countF P D v B E k m z := by
    funext z
    by_cases hz : z ∈ B
    · rw [if_pos hz, if_pos hz]
    · rw [if_neg hz, if_neg hz]
  rw [e']
  exact Measurable.ite hB (h (m + 1)) (h m)

section
variable {P : Measure Ω} [IsProbabilityMeasure P] {D : Ω → Fin n → ℝ} {v : (Fin n → ℝ) → ℝ}

theorem countF_measurable (hD : Measurable D) (hv : Measurable v) {B : Set (Fin n → ℝ)} (hB : MeasurableSet B)
    (E : Set ℕ) (k m : ℕ) : Measurable (countF P D v B E k m) := by
  induction k generalizing m with
  | zero => exact measurable_const
  | succ k ih =>
    have hmv : Measurable fun p : (Fin n → ℝ) × Ω => p.1 + D p.2 := measurable_fst.add (hD.comp measurable_snd)
    exact afterF_measurable hv hmv (countF_next P D v hB E k m ih)

theorem countF_add (hD : Measurable D) (hv : Measurable v) (hn : ∀ s, 0 ≤ v s) {B : Set (Fin n → ℝ)}
    (hB : MeasurableSet B) (E : Set ℕ) (k m : ℕ) (s : Fin n → ℝ) :
    countF P D v B E k m s + countF P D v B Eᶜ k m s = 1 := by
  classical
  induction k generalizing m s with
  | zero =>
    by_cases h : m ∈ E <;> simp [countF, h]
  | succ k ih =>
    have h1 := countF_next P D v hB E k m fun m => countF_measurable hD hv hB E k m
    have h2 := countF_next P D v hB Eᶜ k m fun m => countF_measurable hD hv hB Eᶜ k m
    have hr : Measurable fun ω => Spec.ratio (v s) (v (s + D ω)) :=
      ratio_measurable.comp (measurable_const.prodMk (hv.comp (measurable_const.add hD)))
    have ha : Measurable fun ω => s + D ω := measurable_const.add hD
    simp only [countF, afterF]
    have hm : Measurable fun ω => ENNReal.ofReal (Spec.ratio (v s) (v (s + D ω))) *
        countF P D v B E k (if s + D ω ∈ B then m + 1 else m) (s + D ω) +
        ENNReal.ofReal (1 - Spec.ratio (v s) (v (s + D ω))) * countF P D v B E k (if s ∈ B then m + 1 else m) s :=
      (hr.ennreal_ofReal.mul (h1.comp ha)).add ((measurable_const.sub hr).ennreal_ofReal.mul measurable_const)
    rw [← lintegral_add_left hm]
    have e : ∀ ω, ENNReal.ofReal (Spec.ratio (v s) (v (s + D ω))) + ENNReal.ofReal (1 - Spec.ratio (v s) (v (s + D ω))) = 1 := by
      intro ω
      obtain ⟨r0, r1⟩ := ratio_bounds (v s) (v (s + D ω)) (hn _)
      rw [← ENNReal.ofReal_add r0 (sub_nonneg.2 r1), add_sub_cancel, ENNReal.ofReal_one]
    rw [lintegral_congr (g := fun _ => 1), lintegral_const, measure_univ, one_mul]
    intro ω
    rw [add_add_add_comm, ← mul_add, ← mul_add, ih, ih, mul_one, mul_one, e]

end

/-- `Spec.counts` by place. -/
theorem counts_eq {P : Measure Ω} {D : Ω → Fin n → ℝ} {w : (Fin n → ℝ) → ℝ} {cs : Fin n → Spec.Axis}
    (hcs : Spec.Invertible cs) {f : Ω → Py (DeltaRet n)} (hf : ∀ ω, f ω = .ok (.delta (D ω)))
    {prob : (Fin n → ℝ) → ℝ} {q : (Fin n → ℝ) → (Fin n → ℝ) → ℝ} {hastings : Bool}
    {start : Fin n → ℝ} {pscale : PSpec} (hst : Spec.Stored prob pscale w)
    (hj : ∀ x ω, Spec.Judgeable hastings false pscale w q x (Spec.displaced cs x (D ω)))
    (A : Set (Fin n → ℝ)) (E : Set ℕ) (k : ℕ) :
    ∀ (m : ℕ) (l : OPQR (Row (Fin n → ℝ))) (s : Fin n → ℝ), Spec.At prob l (Spec.untransformed cs s) →
    Spec.counts P (Spec.mover cs false f prob q false hastings start pscale) A E k l m =
      countF P D (fun s => w (Spec.untransformed cs s)) (Spec.untransformed cs ⁻¹' A) E k m s := by
  classical
  set g := Spec.untransformed cs with hg
  have hn : ∀ s, 0 ≤ w (g s) := fun s => hst.nonneg _
  induction k with
  | zero => intro m l s _; rfl
  | succ k ih =>
    intro m l s hl
    simp only [Spec.counts, countF, afterF]
    refine lintegral_congr fun d => ?_
    let V : OPQR (Row (Fin n → ℝ)) → ENNReal := fun l' =>
      Spec.counts P (Spec.mover cs false f prob q false hastings start pscale) A E k l'
        (if ∃ x ∈ A, l'.p.map Row.val = some x then m + 1 else m)
    let Q : (Fin n → ℝ) → ENNReal := fun z => countF P D (fun s => w (g s)) (g ⁻¹' A) E k (if z ∈ g ⁻¹' A then m + 1 else m) z
    have hV : ∀ l' z, Spec.At prob l' (g z) → V l' = Q z := by
      intro l' z hz
      have e : (if ∃ x ∈ A, l'.p.map Row.val = some x then m + 1 else m) = if z ∈ g ⁻¹' A then m + 1 else m := by
        simp only [hz.1, Option.map_some, Option.some.injEq]
        by_cases hzA : g z ∈ A
        · rw [if_pos ⟨_, hzA, rfl⟩, if_pos (show z ∈ g ⁻¹' A from hzA)]
        · rw [if_neg (by rintro ⟨y, hy, rfl⟩; exact hzA hy), if_neg (show z ∉ g ⁻¹' A from hzA)]
      simp only [V, Q, e]
      exact ih _ l' z hz
    have hle : ∀ t, V ((nextCore (Spec.mover cs false f prob q false hastings start pscale) (some l)
        ⟨d, t⟩ ()).2.1.getD l) = if t ≤ Spec.ratio (w (g s)) (w (g (s + D d))) then Q (s + D d) else Q s := by
      intro t
      obtain ⟨l', smp, h1, h2, h3⟩ := mover_step cs false f prob w q false hastings start pscale hst l
        _ (g (s + D d)) ⟨d, t⟩ hl (by
          rw [deltaStep_ok cs f _ (D d) (fun i => by simp only [hg, Spec.untransformed, (hcs i).1]) ⟨d, t⟩ (hf _),
            displaced_back hcs]) (by rw [hg, ← displaced_back hcs]; exact hj _ _)
      rw [h1]
      simp only [Option.getD_some]
      by_cases ht : t ≤ Spec.ratio (w (g s)) (w (g (s + D d)))
      · rw [if_pos ht]
        exact hV l' _ (h2 ht).1
      · rw [if_neg ht, (h3 ht).1]
        exact hV l s hl
    obtain ⟨r0, r1⟩ := ratio_bounds (w (g s)) (w (g (s + D d))) (hn _)
    exact (congrArg Spec.mean (funext hle)).trans (mean_le _ _ _ r0 r1)

theorem near_compl (π ε : ℝ) (N : ℕ) : Spec.Near π ε N = (Spec.Far π ε N)ᶜ := by
  ext m
  simp [Spec.Near, Spec.Far]

/-- C116: the chances that the number of samples in a set is, and is not, among given numbers add up to one. -/
theorem C116_adds_up {P : Measure Ω} [IsProbabilityMeasure P] {D : Ω → Fin n → ℝ} {w : (Fin n → ℝ) → ℝ}
    {cs : Fin n → Spec.Axis}
    (hcs : Spec.Invertible cs) {f : Ω → Py (DeltaRet n)} (hf : ∀ ω, f ω = .ok (.delta (D ω))) (hD : Measurable D)
    {prob : (Fin n → ℝ) → ℝ} {q : (Fin n → ℝ) → (Fin n → ℝ) → ℝ} {hastings : Bool} {start : Fin n → ℝ}
    {pscale : PSpec} (hst : Spec.Stored prob pscale w) (hw : Measurable w)
    (hj : ∀ x ω, Spec.Judgeable hastings false pscale w q x (Spec.displaced cs x (D ω)))
    {A : Set (Fin n → ℝ)} (hA : MeasurableSet A) (l : OPQR (Row (Fin n → ℝ))) (s : Fin n → ℝ)
    (hl : Spec.At prob l (Spec.untransformed cs s)) (E : Set ℕ) (k m : ℕ) :
    Spec.counts P (Spec.mover cs false f prob q false hastings start pscale) A E k l m +
      Spec.counts P (Spec.mover cs false f prob q false hastings start pscale) A Eᶜ k l m = 1 := by
  have hgm : Measurable (Spec.untransformed cs) := measurable_pi_iff.mpr fun i => (hcs i).2.comp (measurable_pi_apply i)
  rw [counts_eq hcs hf hst hj A E k m l s hl, counts_eq hcs hf hst hj A Eᶜ k m l s hl]
  exact countF_add hD (hw.comp hgm) (fun s => hst.nonneg _) (hgm hA) E k m s

/-! ### Any target -/

/-- C116: the chance that the proportion of the first `N` samples in a set differs from the part of the target there by
`ε` or more tends to zero, from any start. -/
theorem C116_any_target {P : Measure Ω} [IsProbabilityMeasure P] {D : Ω → Fin n → ℝ} {w : (Fin n → ℝ) → ℝ}
    {cs : Fin n → Spec.Axis}
    (hcs : Spec.Invertible cs) {f : Ω → Py (DeltaRet n)} (hf : ∀ ω, f ω = .ok (.delta (D ω)))
    (hD : Measurable D) (hsym : P.map (fun ω => - D ω) = P.map D) (hev : Spec.Everywhere P D)
    {prob : (Fin n → ℝ) → ℝ} {q : (Fin n → ℝ) → (Fin n → ℝ) → ℝ} {hastings : Bool} {start : Fin n → ℝ}
    {pscale : PSpec} (hst : Spec.Stored prob pscale w) (hw : Measurable w)
    (hj : ∀ x ω, Spec.Judgeable hastings false pscale w q x (Spec.displaced cs x (D ω)))
    (h0 : ∫⁻ s, ENNReal.ofReal (w (Spec.untransformed cs s)) ≠ 0)
    (h1 : ∫⁻ s, ENNReal.ofReal (w (Spec.untransformed cs s)) ≠ ⊤)
    {A : Set (Fin n → ℝ)} (hA : MeasurableSet A) (l : OPQR (Row (Fin n → ℝ))) (s : Fin n → ℝ)
    (hl : Spec.At prob l (Spec.untransformed cs s)) {ε : ℝ} (hε : 0 < ε) :
    Tendsto (fun N : ℕ => Spec.counts P (Spec.mover cs false f prob q false hastings start pscale) A
      (Spec.Far (Spec.partOf w (Spec.untransformed cs) A).toReal ε N) N l 0) atTop (𝓝 0) :=
  strays_tendsto _ _ _ _ hε l (C111_proportions hcs hf hD hsym hev hst hw hj h0 h1 hA l s hl)

/-- C116: the chance that it differs by less than `ε` tends to one. -/
theorem C116_any_target_near {P : Measure Ω} [IsProbabilityMeasure P] {D : Ω → Fin n → ℝ} {w : (Fin n → ℝ) → ℝ}
    {cs : Fin n → Spec.Axis}
    (hcs : Spec.Invertible cs) {f : Ω → Py (DeltaRet n)} (hf : ∀ ω, f ω = .ok (.delta (D ω)))
    (hD : Measurable D) (hsym : P.map (fun ω => - D ω) = P.map D) (hev : Spec.Everywhere P D)
    {prob : (Fin n → ℝ) → ℝ} {q : (Fin n → ℝ) → (Fin n → ℝ) → ℝ} {hastings : Bool} {start : Fin n → ℝ}
    {pscale : PSpec} (hst : Spec.Stored prob pscale w) (hw : Measurable w)
    (hj : ∀ x ω, Spec.Judgeable hastings false pscale w q x (Spec.displaced cs x (D ω)))
    (h0 : ∫⁻ s, ENNReal.ofReal (w (Spec.untransformed cs s)) ≠ 0)
    (h1 : ∫⁻ s, ENNReal.ofReal (w (Spec.untransformed cs s)) ≠ ⊤)
    {A : Set (Fin n → ℝ)} (hA : MeasurableSet A) (l : OPQR (Row (Fin n → ℝ))) (s : Fin n → ℝ)
    (hl : Spec.At prob l (Spec.untransformed cs s)) {ε : ℝ} (hε : 0 < ε) :
    Tendsto (fun N : ℕ => Spec.counts P (Spec.mover cs false f prob q false hastings start pscale) A
      (Spec.Near (Spec.partOf w (Spec.untransformed cs) A).toReal ε N) N l 0) atTop (𝓝 1) := by
  have h := C116_any_target hcs hf hD hsym hev hst hw hj h0 h1 hA l s hl hε (P := P) (start := start)
  have e : ∀ N : ℕ, Spec.counts P (Spec.mover cs false f prob q false hastings start pscale) A
      (Spec.Near (Spec.partOf w (Spec.untransformed cs) A).toReal ε N) N l 0 =
      1 - Spec.counts P (Spec.mover cs false f prob q false hastings start pscale) A
        (Spec.Far (Spec.partOf w (Spec.untransformed cs) A).toReal ε N) N l 0 := by
    intro N
    have ha := C116_adds_up hcs hf hD hst hw hj hA l s hl (Spec.Far (Spec.partOf w (Spec.untransformed cs) A).toReal ε N)
      N 0 (P := P) (start := start)
    rw [near_compl]
    refine ENNReal.eq_sub_of_add_eq ?_ ?_
    · exact ne_top_of_le_ne_top ENNReal.one_ne_top (ha ▸ le_self_add)
    · rw [add_comm]
      exact ha
  simp only [e]
  have h2 := ENNReal.Tendsto.sub (tendsto_const_nhds (x := (1 : ENNReal))) h (Or.inl ENNReal.one_ne_top)
  rwa [tsub_zero] at h2

/-- C116: normal displacements of several variables without transform. -/
theorem C116_normal {cs : Fin n → Spec.Axis} (hcs : ∀ i, (cs i).uf = none) {prob w : (Fin n → ℝ) → ℝ}
    (hst : Spec.Stored prob (.flt 1) w) (hw : Measurable w) (h0 : ∫⁻ x, ENNReal.ofReal (w x) ≠ 0)
    (h1 : ∫⁻ x, ENNReal.ofReal (w x) ≠ ⊤) {q : (Fin n → ℝ) → (Fin n → ℝ) → ℝ} (hq : ∀ x y, 0 < q x y)
    (hastings : Bool) (start : Fin n → ℝ) {A : Set (Fin n → ℝ)} (hA : MeasurableSet A)
    (l : OPQR (Row (Fin n → ℝ))) (x : Fin n → ℝ) (hl : Spec.At prob l x) {ε : ℝ} (hε : 0 < ε) :
    Tendsto (fun N : ℕ => Spec.counts (normals n)
      (Spec.mover cs false (fun δ => .ok (.delta δ)) prob q false hastings start (.flt 1)) A
      (Spec.Far ((∫⁻ y in A, ENNReal.ofReal (w y)) / ∫⁻ y, ENNReal.ofReal (w y)).toReal ε N) N l 0) atTop (𝓝 0) :=
  strays_tendsto _ _ _ _ hε l (C111_normal_proportions hcs hst hw h0 h1 hq hastings start hA l x hl)

/-- C116: examples/mcmc/mcmc_prob2.py: the proportion of samples in a set strays by `ε` or more from its probability
under the normal law of mean 2 and variance 2 with a chance that tends to zero. -/
theorem C116_prob2 (hastings : Bool) (start : Fin 1 → ℝ) (l : OPQR (Row (Fin 1 → ℝ))) (x : Fin 1 → ℝ)
    (hl : Spec.At (fun x => ProbabilityTheory.gaussianPDFReal 2 2 (x 0)) l x) {B : Set ℝ} (hB : MeasurableSet B) {ε : ℝ}
    (hε : 0 < ε) :
    Tendsto (fun N : ℕ => Spec.counts (normals 1) (Spec.mover (fun _ => ⟨.tuple (-1 : ℝ) (1 : ℝ), none⟩) false
      (fun δ => .ok (.delta δ)) (fun x => ProbabilityTheory.gaussianPDFReal 2 2 (x 0))
      (fun x y => ProbabilityTheory.gaussianPDFReal (x 0) 1 (y 0)) false hastings start (.flt 1)) {s | s 0 ∈ B}
      (Spec.Far ((ProbabilityTheory.gaussianReal 2 2).real B) ε N) N l 0) atTop (𝓝 0) :=
  strays_tendsto _ _ _ _ hε l (C111_prob2_proportions hastings start l x hl hB)

/-- C116: examples/mcmc/mcmc_prob4a.py. -/
theorem C116_prob4a (hastings : Bool) (start : Fin 2 → ℝ) (l : OPQR (Row (Fin 2 → ℝ))) (x : Fin 2 → ℝ)
    (hl : Spec.At bivariate l x) {A : Set (Fin 2 → ℝ)} (hA : MeasurableSet A) {ε : ℝ} (hε : 0 < ε) :
    Tendsto (fun N : ℕ => Spec.counts (normals 2) (Spec.mover (fun _ => ⟨.tuple (-1 : ℝ) (1 : ℝ), none⟩) false
      (fun δ => .ok (.delta δ)) bivariate
      (fun x y => ProbabilityTheory.gaussianPDFReal (x 1) 1 (y 1) * ProbabilityTheory.gaussianPDFReal (x 0) 1 (y 0))
      false hastings start (.flt 1)) A
      (Spec.Far ((∫⁻ y in A, ENNReal.ofReal (bivariate y)) / ∫⁻ y, ENNReal.ofReal (bivariate y)).toReal ε N) N l 0)
      atTop (𝓝 0) :=
  strays_tendsto _ _ _ _ hε l (C111_prob4a_proportions hastings start l x hl hA)

/-! ### Flat targets -/

/-- C116: standard normal steps on a target that is flat within limits: a proportion of `N` samples strays by `ε` or more
from the portion of the volume with a chance of at most a constant, the same for all parts, over `N ε²`. -/
theorem C116_box (a b : Fin n → ℝ) (hab : ∀ i, a i < b i) {c : ℝ} (hc : npz ≤ c)
    {q : (Fin n → ℝ) → (Fin n → ℝ) → ℝ} (hq : ∀ x y, 0 < q x y) {cs : Fin n → Spec.Axis} (hcs : ∀ i, (cs i).uf = none)
    (hastings : Bool) (start : Fin n → ℝ) : ∃ K : ℝ, ∀ A : Set (Fin n → ℝ), MeasurableSet A →
    ∀ (l : OPQR (Row (Fin n → ℝ))) (x : Fin n → ℝ), Spec.At (Spec.flat (Set.Icc a b) c) l x → x ∈ Set.Icc a b →
    ∀ ε : ℝ, 0 < ε → ∀ N : ℕ, 0 < N →
      Spec.counts (normals n) (Spec.mover cs false (fun δ => .ok (.delta δ)) (Spec.flat (Set.Icc a b) c) q false hastings
        start (.flt 1)) A (Spec.Far (Spec.portionOf (Set.Icc a b) A) ε N) N l 0 ≤ ENNReal.ofReal K / N / ENNReal.ofReal (ε ^ 2) := by
  obtain ⟨K, hK⟩ := C110_box_proportions a b hab hc hq hcs hastings start
  exact ⟨K, fun A hA l x hl hx ε hε N hN =>
    (strays_le _ _ _ _ hε hN l).trans (ENNReal.div_le_div_right (hK A hA l x hl hx N) _)⟩

/-- C116: examples/mcmc/mcmc_prob3.py, started at 5. -/
theorem C116_prob3 (hastings : Bool) (start : Fin 1 → ℝ) : ∃ K : ℝ, ∀ v, 3 ≤ v → v ≤ 7 →
    ∀ l : OPQR (Row (Fin 1 → ℝ)), Spec.At (Spec.flat (Set.Icc (fun _ => 3) fun _ => 7) (1 / 4)) l (fun _ => 5) →
    ∀ ε : ℝ, 0 < ε → ∀ N : ℕ, 0 < N →
      Spec.counts (normals 1) (Spec.mover (fun _ => ⟨.tuple (-1 : ℝ) (1 : ℝ), none⟩) false (fun δ => .ok (.delta δ))
        (Spec.flat (Set.Icc (fun _ => 3) fun _ => 7) (1 / 4)) (fun x y => ProbabilityTheory.gaussianPDFReal (x 0) 1 (y 0))
        false hastings start (.flt 1)) {s | s 0 ≤ v} (Spec.Far ((v - 3) / 4) ε N) N l 0 ≤
        ENNReal.ofReal K / N / ENNReal.ofReal (ε ^ 2) := by
  obtain ⟨K, hK⟩ := C110_prob3_proportions hastings start
  exact ⟨K, fun v h3 h7 l hl ε hε N hN =>
    (strays_le _ _ _ _ hε hN l).trans (ENNReal.div_le_div_right (hK v h3 h7 l hl N) _)⟩

/-- Starts of examples/mcmc/mcmc_prob2.py and mcmc_prob3.py. -/
example : (∃ l, Spec.At (fun x : Fin 1 → ℝ => ProbabilityTheory.gaussianPDFReal 2 2 (x 0)) l fun _ => 0) ∧
    (∃ l, Spec.At (Spec.flat (Set.Icc (fun _ : Fin 1 => (3 : ℝ)) fun _ => 7) (1 / 4)) l (fun _ => 5)) ∧
    MeasurableSet (Set.Ici (2 : ℝ)) ∧ (0 : ℝ) < 1 / 100 :=
  ⟨⟨⟨none, some ⟨_, .scalar _⟩, some ⟨_, .scalar 1⟩, none⟩, rfl, _, rfl⟩,
    ⟨⟨none, some ⟨_, .scalar _⟩, some ⟨_, .scalar 1⟩, none⟩, rfl, _, rfl⟩, measurableSet_Ici, by norm_num⟩

/-- No further sample, none or one of two in the set, and a part of one half. -/
example (P : Measure Ω) (R : Proc Unit (Row (Fin n → ℝ)) (DDraw Ω)) (A : Set (Fin n → ℝ)) (l : OPQR (Row (Fin n → ℝ))) :
    Spec.counts P R A (Spec.Far (1 / 2) (1 / 4) 2) 0 l 0 = 1 ∧ Spec.counts P R A (Spec.Far (1 / 2) (1 / 4) 2) 0 l 1 = 0 := by
  unfold Spec.counts Spec.Far
  simp only [Set.mem_setOf_eq]
  constructor
  · rw [if_pos (by norm_num [abs_of_nonneg])]
  · rw [if_neg (by norm_num)]

end Probayes
