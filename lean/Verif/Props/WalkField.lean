/-
C83: Metropolis chains of float variables that step by their deltas.
-/
import Verif.Lemmas.WalkField
import Verif.Props.Walk
import Verif.Props.Variable

namespace Probayes

open MeasureTheory

/-! ### What is claimed -/

/-- A float variable as declared: its set, its transform if any, and its steps, of random
sign `(d,)` or uniform `[d]`. -/
structure Spec.Declared where
  set : FSet
  uf : UFun
  scale : Bool
  bound : Bool
  len : ℝ
  uniform : Bool
  d : ℝ

/-- The variable that results. -/
noncomputable def Spec.Declared.coord (c : Spec.Declared) : FCoord :=
  ⟨.make c.set, c.uf, ⟨some (if c.uniform then .urand c.d else .orand c.d), c.scale, c.bound⟩, c.len⟩

/-- Both limits are excluded. -/
def Spec.Open : FSet → Prop
  | .tuple _ _ => True
  | .list a b => a.excl = true ∧ b.excl = true

/-- The mean over uniform draws from the unit cube. -/
noncomputable def Spec.means {n : ℕ} (f : (Fin n → ℝ) → ENNReal) : ENNReal :=
  ∫⁻ u in Set.univ.pi fun _ => Set.Ico 0 1, f u

/-- The probability that the chain in the state `l` is in the set `A` after `k` further steps,
the draws of each being independent and uniform. -/
noncomputable def Spec.within {n : ℕ} (P : Proc Unit (Row (Fin n → ℝ)) (FDraw n)) :
    ℕ → OPQR (Row (Fin n → ℝ)) → Set (Fin n → ℝ) → ENNReal
  | 0, l, A => open Classical in if ∃ x ∈ A, l.p.map Row.val = some x then 1 else 0
  | k + 1, l, A => Spec.means fun u => Spec.mean fun t =>
      Spec.within P k ((nextCore P (some l) ⟨u, t⟩ ()).2.1.getD l) A

/-- The chain of the variables. -/
noncomputable def Spec.chains {n : ℕ} (cs : Fin n → Spec.Declared) (bound : Bool) (prob : (Fin n → ℝ) → ℝ)
    (tran : ℝ) (start : Fin n → ℝ) (pscale : PSpec) : Proc Unit (Row (Fin n → ℝ)) (FDraw n) :=
  walkProc (fieldStep (fun i => (cs i).coord) bound) prob tran start pscale FDraw.t

/-- The values of transformed coordinates `s`. -/
def Spec.back {n : ℕ} (cs : Fin n → Spec.Declared) (s : Fin n → ℝ) : Fin n → ℝ := fun i => (cs i).uf.inv (s i)

/-- The density `w` in the coordinates in which the steps are made (the values themselves if
there is no transform), within the region `S`, is kept by the chain: started with this
density, it is in `A` after any number of steps with the same probability as at first. -/
def Spec.KeepsDensity {n : ℕ} (P : Proc Unit (Row (Fin n → ℝ)) (FDraw n)) (prob : (Fin n → ℝ) → ℝ)
    (w : (Fin n → ℝ) → ℝ) (g : (Fin n → ℝ) → Fin n → ℝ) (S : Set (Fin n → ℝ)) : Prop :=
  ∀ l : (Fin n → ℝ) → OPQR (Row (Fin n → ℝ)), (∀ x, Spec.At prob (l x) x) → ∀ k A, MeasurableSet A →
    ∫⁻ s in {s | g s ∈ S}, ENNReal.ofReal (w (g s)) * Spec.within P k (l (g s)) A =
      ∫⁻ s in {s | g s ∈ S ∩ A}, ENNReal.ofReal (w (g s))

/-- The transforms are inverted by their second functions, which are measurable. -/
def Spec.Undone (c : Spec.Declared) : Prop := Measurable c.uf.inv ∧ ∀ s, c.uf.fwd (c.uf.inv s) = s

/-- The region to which steps are bounded: the declared sets, or everything. -/
def Spec.region {n : ℕ} (cs : Fin n → Spec.Declared) (bound : Bool) : Set (Fin n → ℝ) :=
  {x | bound = true → ∀ i, Spec.MemF (cs i).set (x i)}

/-! ### Steps in transformed coordinates -/

/-- What is added. -/
noncomputable def addend (c : Spec.Declared) (u : ℝ) : ℝ :=
  if c.uniform then -c.d + 2 * c.d * u else if u > 1/2 then c.d else -c.d

theorem addend_measurable (c : Spec.Declared) : Measurable (addend c) := by
  unfold addend
  by_cases h : c.uniform = true
  · simp only [h, if_true]
    exact measurable_const.add (measurable_const.mul measurable_id)
  · simp only [h, if_false, Bool.false_eq_true]
    exact Measurable.ite (measurableSet_Ioi) measurable_const measurable_const

theorem addend_flip (c : Spec.Declared) (u : ℝ) (hu : u ≠ 1/2) : addend c (1 - u) = - addend c u := by
  unfold addend
  split
  · ring
  · rcases lt_or_gt_of_ne hu with h | h
    · rw [if_pos (by linarith), if_neg (by linarith), neg_neg]
    · rw [if_neg (by linarith), if_pos h]

theorem floatStep_free (c : Spec.Declared) (v u : ℝ) :
    floatStep c.coord false v u = c.uf.inv (c.uf.fwd v + addend c u) := by
  unfold floatStep Spec.Declared.coord addend
  cases hu : c.uniform <;> rcases huf : c.uf with _ | ⟨f, g⟩ <;>
    simp [evalDelta, orDefault, isDefaultScalar, FloatVar.applyScalar, effectiveDelta, DeltaSpec.truthy, shift,
      UFun.inv, UFun.fwd]

theorem boundScalar_open (set : FSet) (ho : Spec.Open set) (v z : ℝ) :
    (FloatVar.make set).boundScalar v z = open Classical in if Spec.MemF set z then z else v := by
  have h := C08_inside_float set z
  rcases hs : set with ⟨a, b⟩ | ⟨⟨a, ae⟩, ⟨b, be⟩⟩
  · rw [hs] at h
    have : ¬ max a b < min a b := not_lt.mpr min_le_max
    simp only [FloatVar.boundScalar, FloatVar.make, FSet.toList, this, if_false] at h ⊢
    by_cases hm : Spec.MemF (.tuple a b) z
    · rw [if_pos (h.mpr hm), if_pos hm]
    · rw [if_neg (mt h.mp hm), if_neg hm]
  · rw [hs] at h ho
    obtain ⟨h1, h2⟩ := ho
    simp only at h1 h2
    subst h1 h2
    by_cases hab : b < a <;>
    · simp only [FloatVar.boundScalar, FloatVar.make, FSet.toList, hab, if_false, if_true] at h ⊢
      by_cases hm : Spec.MemF (.list ⟨a, true⟩ ⟨b, true⟩) z
      · rw [if_pos (h.mpr hm), if_pos hm]
      · rw [if_neg (mt h.mp hm), if_neg hm]

theorem floatStep_bound (c : Spec.Declared) (ho : Spec.Open c.set) (v u : ℝ) :
    floatStep c.coord true v u = open Classical in
      if Spec.MemF c.set (c.uf.inv (c.uf.fwd v + addend c u)) then c.uf.inv (c.uf.fwd v + addend c u) else v := by
  have := floatStep_free c v u
  unfold floatStep at this ⊢
  rw [← this, ← boundScalar_open c.set ho]
  unfold Spec.Declared.coord
  cases hu : c.uniform <;>
    simp [evalDelta, orDefault, isDefaultScalar, FloatVar.applyScalar, effectiveDelta, DeltaSpec.truthy]

/-! ### One step in the mean -/

/-- The mean after one step of a function of the position. -/
noncomputable def afterF {V U : Type} [MeasurableSpace U] (ρ : Measure U) (w : V → ℝ) (mv : V → U → V)
    (F : V → ENNReal) (x : V) : ENNReal :=
  ∫⁻ u, (ENNReal.ofReal (Spec.ratio (w x) (w (mv x u))) * F (mv x u) +
    ENNReal.ofReal (1 - Spec.ratio (w x) (w (mv x u))) * F x) ∂ρ

theorem within_eq {n : ℕ} (cs : Fin n → Spec.Declared) (bound : Bool) {prob : (Fin n → ℝ) → ℝ} {pscale : PSpec}
    {w : (Fin n → ℝ) → ℝ} (hst : Spec.Stored prob pscale w) (tran : ℝ) (start : Fin n → ℝ)
    (A : Set (Fin n → ℝ)) (k : ℕ) : ∀ (l : OPQR (Row (Fin n → ℝ))) (x : Fin n → ℝ), Spec.At prob l x →
      Spec.within (Spec.chains cs bound prob tran start pscale) k l A =
        ((afterF (cubeLaw n) w fun x u i => floatStep (cs i).coord bound (x i) (u i))^[k] (A.indicator 1)) x := by
  classical
  obtain ⟨a, hs, ha, hu, hw⟩ := hst.scale
  have hnn := stored_nonneg hst
  induction k with
  | zero =>
      intro l x hl
      simp only [Spec.within, Function.iterate_zero, id, hl.1, Option.map_some, Option.some.injEq]
      by_cases h : x ∈ A
      · rw [if_pos ⟨x, h, rfl⟩, Set.indicator_of_mem h]; rfl
      · rw [if_neg (by rintro ⟨y, hy, rfl⟩; exact h hy), Set.indicator_of_notMem h]
  | succ k ih =>
      intro l x hl
      rw [Function.iterate_succ_apply']
      set F := (afterF (cubeLaw n) w fun x u i => floatStep (cs i).coord bound (x i) (u i))^[k] (A.indicator 1)
      simp only [Spec.within, Spec.means, afterF]
      congr 1
      funext u
      set y : Fin n → ℝ := fun i => floatStep (cs i).coord bound (x i) (u i) with hy
      have hstep : ∀ t, Spec.within (Spec.chains cs bound prob tran start pscale) k
          ((nextCore (Spec.chains cs bound prob tran start pscale) (some l) ⟨u, t⟩ ()).2.1.getD l) A =
          if t ≤ Spec.ratio (w x) (w y) then F y else F x := by
        intro t
        obtain ⟨l', smp, h1, h2, h3⟩ := C82_step (fieldStep (fun i => (cs i).coord) bound) prob tran start pscale
          a hs ha hu FDraw.t l x y ⟨u, t⟩ hl rfl
        rw [hw, hw] at h2 h3
        unfold Spec.chains
        rw [h1]
        simp only [Option.getD_some]
        by_cases ht : t ≤ Spec.ratio (w x) (w y)
        · rw [if_pos ht]
          exact ih l' _ (h2 ht).1
        · rw [if_neg ht, (h3 ht).1]
          exact ih l x hl
      simp only [hstep]
      obtain ⟨r0, r1⟩ := ratio_bounds (w x) (w y) (hnn _)
      exact mean_le _ _ _ r0 r1

theorem ratio_measurable : Measurable fun p : ℝ × ℝ => Spec.ratio p.1 p.2 := by
  unfold Spec.ratio
  exact measurable_const.min (measurable_snd.div (measurable_const.max measurable_fst))

theorem cubeLaw_univ (n : ℕ) : cubeLaw n Set.univ = 1 := by
  simp [cubeLaw, Real.volume_pi_Ico]

local instance (n : ℕ) : IsProbabilityMeasure (cubeLaw n) := ⟨cubeLaw_univ n⟩

theorem afterF_measurable {n : ℕ} {U : Type} [MeasurableSpace U] {ρ : Measure U} [IsProbabilityMeasure ρ] {w : (Fin n → ℝ) → ℝ} (hw : Measurable w)
    {mv : (Fin n → ℝ) → U → Fin n → ℝ}
    (hmv : Measurable fun p : (Fin n → ℝ) × U => mv p.1 p.2) {F : (Fin n → ℝ) → ENNReal}
    (hF : Measurable F) : Measurable (afterF (ρ) w mv F) := by
  have h1 : Measurable fun p : (Fin n → ℝ) × U => Spec.ratio (w p.1) (w (mv p.1 p.2)) :=
    ratio_measurable.comp ((hw.comp measurable_fst).prodMk (hw.comp hmv))
  have h2 : Measurable fun p : (Fin n → ℝ) × U =>
      ENNReal.ofReal (Spec.ratio (w p.1) (w (mv p.1 p.2))) * F (mv p.1 p.2) +
        ENNReal.ofReal (1 - Spec.ratio (w p.1) (w (mv p.1 p.2))) * F p.1 :=
    ((ENNReal.measurable_ofReal.comp h1).mul (hF.comp hmv)).add
      ((ENNReal.measurable_ofReal.comp (measurable_const.sub h1)).mul (hF.comp measurable_fst))
  exact h2.lintegral_prod_right'

/-- Moves that are reversible within `R` keep every density there. -/
theorem afterF_keeps_of {n : ℕ} {U : Type} [MeasurableSpace U] {ρ : Measure U} [IsProbabilityMeasure ρ] {R : Set (Fin n → ℝ)} {mv : (Fin n → ℝ) → U → Fin n → ℝ}
    (hmv : Measurable fun p : (Fin n → ℝ) × U => mv p.1 p.2)
    (hrevs : ∀ G : (Fin n → ℝ) → (Fin n → ℝ) → ENNReal,
      (Measurable fun p : (Fin n → ℝ) × (Fin n → ℝ) => G p.1 p.2) →
      ∫⁻ s in R, ∫⁻ u, G s (mv s u) ∂ρ = ∫⁻ s in R, ∫⁻ u, G (mv s u) s ∂ρ)
    {w : (Fin n → ℝ) → ℝ} (hw : Measurable w) (hn : ∀ x, 0 ≤ w x) {F : (Fin n → ℝ) → ENNReal}
    (hF : Measurable F) :
    ∫⁻ s in R, ENNReal.ofReal (w s) * afterF ρ w mv F s =
      ∫⁻ s in R, ENNReal.ofReal (w s) * F s := by
  have hnn := hn
  have hbal : ∀ x y, w x * Spec.ratio (w x) (w y) = w y * Spec.ratio (w y) (w x) := by
    intro x y
    have := C35_detailed_balance (w x) (w y) 1 (hn x) (hn y)
    simpa [Spec.ratio] using this
  have h1 : Measurable fun p : (Fin n → ℝ) × U => Spec.ratio (w p.1) (w (mv p.1 p.2)) :=
    ratio_measurable.comp ((hw.comp measurable_fst).prodMk (hw.comp hmv))
  have hA : Measurable fun p : (Fin n → ℝ) × U => 
      ENNReal.ofReal (w p.1 * Spec.ratio (w p.1) (w (mv p.1 p.2))) * F (mv p.1 p.2) :=
    (ENNReal.measurable_ofReal.comp ((hw.comp measurable_fst).mul h1)).mul (hF.comp hmv)
  have hC : Measurable fun p : (Fin n → ℝ) × U => 
      ENNReal.ofReal (w p.1 * (1 - Spec.ratio (w p.1) (w (mv p.1 p.2)))) * F p.1 :=
    (ENNReal.measurable_ofReal.comp ((hw.comp measurable_fst).mul (measurable_const.sub h1))).mul
      (hF.comp measurable_fst)
  have hD : Measurable fun p : (Fin n → ℝ) × U => 
      ENNReal.ofReal (w p.1 * Spec.ratio (w p.1) (w (mv p.1 p.2))) * F p.1 :=
    (ENNReal.measurable_ofReal.comp ((hw.comp measurable_fst).mul h1)).mul (hF.comp measurable_fst)
  -- move the weight inside
  have hin : ∀ s, ENNReal.ofReal (w s) * afterF ρ w mv F s =
      (∫⁻ u, ENNReal.ofReal (w s * Spec.ratio (w s) (w (mv s u))) * F (mv s u) ∂ρ) +
      ∫⁻ u, ENNReal.ofReal (w s * (1 - Spec.ratio (w s) (w (mv s u)))) * F s ∂ρ := by
    intro s
    unfold afterF
    have hA' : Measurable fun u =>
        ENNReal.ofReal (w s * Spec.ratio (w s) (w (mv s u))) * F (mv s u) :=
      hA.comp (measurable_const.prodMk measurable_id)
    rw [← lintegral_const_mul' _ _ ENNReal.ofReal_ne_top, ← lintegral_add_left hA']
    congr 1
    funext u
    rw [mul_add, ← mul_assoc, ← mul_assoc, ← ENNReal.ofReal_mul (hnn s), ← ENNReal.ofReal_mul (hnn s)]
  have hrev := hrevs (fun s z => ENNReal.ofReal (w s * Spec.ratio (w s) (w z)) * F z)
    ((ENNReal.measurable_ofReal.comp ((hw.comp measurable_fst).mul
      (ratio_measurable.comp ((hw.comp measurable_fst).prodMk (hw.comp measurable_snd))))).mul
        (hF.comp measurable_snd))
  simp only [hin]
  rw [lintegral_add_left hA.lintegral_prod_right', hrev, ← lintegral_add_left]
  · congr 1
    funext s
    rw [← lintegral_add_left]
    · have : ∀ u, ENNReal.ofReal (w (mv s u) * Spec.ratio (w (mv s u)) (w s)) * F s +
          ENNReal.ofReal (w s * (1 - Spec.ratio (w s) (w (mv s u)))) * F s = ENNReal.ofReal (w s) * F s := by
        intro u
        obtain ⟨r0, r1⟩ := ratio_bounds (w s) (w (mv s u)) (hnn _)
        rw [← add_mul, hbal, ← ENNReal.ofReal_add (mul_nonneg (hnn s) r0)
          (mul_nonneg (hnn s) (sub_nonneg.mpr r1))]
        congr 2
        ring
      simp only [this]
      rw [lintegral_const, measure_univ, mul_one]
    · simp only [hbal _ s]
      exact hD.comp (measurable_const.prodMk measurable_id)
  · simp only [hbal (mv _ _) _]
    exact hD.lintegral_prod_right'

theorem afterF_keeps {n : ℕ} {B : Fin n → Set ℝ} (hB : ∀ i, MeasurableSet (B i)) {e : Fin n → ℝ → ℝ}
    (he : ∀ i, Measurable (e i)) (hsym : ∀ i u, u ≠ 1/2 → e i (1 - u) = - e i u)
    {w : (Fin n → ℝ) → ℝ} (hw : Measurable w) (hn : ∀ x, 0 ≤ w x) {F : (Fin n → ℝ) → ENNReal}
    (hF : Measurable F) :
    ∫⁻ s in Set.univ.pi B, ENNReal.ofReal (w s) * afterF (cubeLaw n) w (walkTo B e) F s =
      ∫⁻ s in Set.univ.pi B, ENNReal.ofReal (w s) * F s :=
  afterF_keeps_of (walkTo_measurable hB he) (walkTo_reversible hB he hsym) hw hn hF

theorem memF_measurable (s : FSet) : MeasurableSet {x : ℝ | Spec.MemF s x} := by
  have h1 : ∀ a : EReal, MeasurableSet {x : ℝ | a < x} := fun a =>
    measurableSet_lt measurable_const measurable_coe_real_ereal
  have h2 : ∀ a : EReal, MeasurableSet {x : ℝ | a ≤ x} := fun a =>
    measurableSet_le measurable_const measurable_coe_real_ereal
  have h3 : ∀ a : EReal, MeasurableSet {x : ℝ | (x : EReal) < a} := fun a =>
    measurableSet_lt measurable_coe_real_ereal measurable_const
  have h4 : ∀ a : EReal, MeasurableSet {x : ℝ | (x : EReal) ≤ a} := fun a =>
    measurableSet_le measurable_coe_real_ereal measurable_const
  rcases s with ⟨a, b⟩ | ⟨⟨a, ae⟩, ⟨b, be⟩⟩
  · exact (h1 _).inter (h3 _)
  · by_cases h : a ≤ b <;> cases ae <;> cases be <;>
      simp only [Spec.MemF, h, if_true, if_false, Spec.above, Spec.below, Bool.false_eq_true] <;>
      first
      | exact (h1 _).inter (h3 _)
      | exact (h1 _).inter (h4 _)
      | exact (h2 _).inter (h3 _)
      | exact (h2 _).inter (h4 _)

/-- C83: with steps of random sign or uniform ones, unbounded or within open limits, a
Metropolis chain of any number of float variables keeps the target, in the coordinates
in which the steps are made. -/
theorem C83_keeps {n : ℕ} (cs : Fin n → Spec.Declared) (bound : Bool) (prob : (Fin n → ℝ) → ℝ) (pscale : PSpec)
    (w : (Fin n → ℝ) → ℝ) (tran : ℝ) (start : Fin n → ℝ) (hst : Spec.Stored prob pscale w) (hw : Measurable w)
    (hopen : bound = true → ∀ i, Spec.Open (cs i).set) (huf : ∀ i, Spec.Undone (cs i)) :
    Spec.KeepsDensity (Spec.chains cs bound prob tran start pscale) prob w (Spec.back cs)
      (Spec.region cs bound) := by
  classical
  intro l hl k A hA
  set g := Spec.back cs with hg
  have hgm : Measurable g := measurable_pi_iff.mpr fun i => (huf i).1.comp (measurable_pi_apply i)
  -- the region, coordinate by coordinate
  let B : Fin n → Set ℝ := fun i => {s | bound = true → Spec.MemF (cs i).set ((cs i).uf.inv s)}
  have hB : ∀ i, MeasurableSet (B i) := by
    intro i
    by_cases hb : bound = true
    · simp only [B, hb, true_imp_iff]
      exact (huf i).1 (memF_measurable (cs i).set)
    · simp [B, hb]
  have hreg : {s | g s ∈ Spec.region cs bound} = Set.univ.pi B := by
    ext s
    simp only [Spec.region, Set.mem_setOf_eq, Set.mem_pi, Set.mem_univ, true_imp_iff, B, hg, Spec.back]
    exact ⟨fun h i hb => h hb i, fun h hb i => h i hb⟩
  -- the step in these coordinates
  have hmv : ∀ s u, (fun i => floatStep (cs i).coord bound (g s i) (u i)) =
      g (walkTo B (fun i => addend (cs i)) s u) := by
    intro s u
    funext i
    simp only [hg, Spec.back, walkTo, B, Set.mem_setOf_eq]
    cases hb : bound with
    | false =>
        rw [floatStep_free, (huf i).2]
        simp
    | true =>
        rw [floatStep_bound _ (hopen hb i), (huf i).2]
        simp only [true_imp_iff]
        split <;> rfl
  have hiter : ∀ k s, ((afterF (cubeLaw n) w fun x u i => floatStep (cs i).coord bound (x i) (u i))^[k]
      (A.indicator 1)) (g s) =
      ((afterF (cubeLaw n) (fun s => w (g s)) (walkTo B fun i => addend (cs i)))^[k]
        ((g ⁻¹' A).indicator 1)) s := by
    intro k
    induction k with
    | zero => intro s; rfl
    | succ k ih =>
        intro s
        rw [Function.iterate_succ_apply', Function.iterate_succ_apply']
        unfold afterF at ih ⊢
        simp only [hmv]
        congr 1
        funext u
        rw [ih, ih]
  have hwg : Measurable fun s => w (g s) := hw.comp hgm
  have hAm : MeasurableSet (g ⁻¹' A) := hgm hA
  have hFm : ∀ k, Measurable ((afterF (cubeLaw n) (fun s => w (g s)) (walkTo B fun i => addend (cs i)))^[k]
        ((g ⁻¹' A).indicator 1)) := by
    intro k
    induction k with
    | zero => exact measurable_one.indicator hAm
    | succ k ih =>
        rw [Function.iterate_succ_apply']
        exact afterF_measurable hwg (walkTo_measurable hB fun i => addend_measurable _) ih
  have hkeep : ∀ k, ∫⁻ s in Set.univ.pi B, ENNReal.ofReal (w (g s)) *
      ((afterF (cubeLaw n) (fun s => w (g s)) (walkTo B fun i => addend (cs i)))^[k]
        ((g ⁻¹' A).indicator 1)) s = ∫⁻ s in Set.univ.pi B, ENNReal.ofReal (w (g s)) * (g ⁻¹' A).indicator 1 s := by
    intro k
    induction k with
    | zero => rfl
    | succ k ih =>
        rw [← ih]
        simp only [Function.iterate_succ_apply']
        exact afterF_keeps hB (fun i => addend_measurable _) (fun i => addend_flip _) hwg
          (fun s => hst.nonneg _) (hFm k)
  have hset : {s | g s ∈ Spec.region cs bound ∩ A} = (g ⁻¹' A) ∩ Set.univ.pi B := by
    rw [← hreg]
    ext s
    simp [and_comm]
  simp only [within_eq cs bound hst tran start A k (l _) _ (hl _), hiter]
  rw [hreg, hkeep k, hset, ← Measure.restrict_restrict hAm, ← lintegral_indicator hAm]
  congr 1
  funext s
  by_cases h : s ∈ g ⁻¹' A
  · simp [Set.indicator_of_mem h]
  · simp [Set.indicator_of_notMem h]

/-! ### One step -/

/-- What a variable at `v` proposes with the uniform draw `u`: the step is added to the
transformed value; proposals outside the declared set are given up if steps are bounded. -/
noncomputable def Spec.proposed (c : Spec.Declared) (bound : Bool) (v u : ℝ) : ℝ :=
  open Classical in
  let e := if c.uniform then c.d * (2 * u - 1) else if u > 1/2 then c.d else -c.d
  let z := c.uf.inv (c.uf.fwd v + e)
  if bound = true ∧ ¬ Spec.MemF c.set z then v else z

/-- C83: in each step all variables propose, each by a draw of its own, and the chain moves
there if the threshold is at most the ratio of the probabilities, and stays otherwise. -/
theorem C83_step {n : ℕ} (cs : Fin n → Spec.Declared) (bound : Bool) (prob : (Fin n → ℝ) → ℝ) (pscale : PSpec)
    (w : (Fin n → ℝ) → ℝ) (tran : ℝ) (start : Fin n → ℝ) (hst : Spec.Stored prob pscale w)
    (hopen : bound = true → ∀ i, Spec.Open (cs i).set) (l : OPQR (Row (Fin n → ℝ))) (x y u : Fin n → ℝ) (t : ℝ)
    (hl : Spec.At prob l x) (hy : ∀ i, y i = Spec.proposed (cs i) bound (x i) (u i)) :
    ∃ l' smp, nextCore (Spec.chains cs bound prob tran start pscale) (some l) ⟨u, t⟩ () =
        ((), some l', .ok (.sample smp)) ∧
      (t ≤ Spec.ratio (w x) (w y) → Spec.At prob l' y ∧ smp.v = some ⟨y, .scalar (prob y)⟩) ∧
      (¬ t ≤ Spec.ratio (w x) (w y) → l' = l ∧ smp.v = some ⟨x, .scalar (prob x)⟩) := by
  classical
  obtain ⟨a, hs, ha, hu, hw⟩ := hst.scale
  have hstep : fieldStep (fun i => (cs i).coord) bound x ⟨u, t⟩ = .ok y := by
    unfold fieldStep
    congr 1
    funext i
    have he : addend (cs i) (u i) = if (cs i).uniform then (cs i).d * (2 * u i - 1)
        else if u i > 1/2 then (cs i).d else -(cs i).d := by
      unfold addend
      split
      · ring
      · rfl
    rw [hy i]
    unfold Spec.proposed
    simp only [← he]
    cases hb : bound with
    | false => simp [floatStep_free]
    | true =>
        rw [floatStep_bound _ (hopen hb i)]
        by_cases hm : Spec.MemF (cs i).set ((cs i).uf.inv ((cs i).uf.fwd (x i) + addend (cs i) (u i)))
        · rw [if_pos hm, if_neg (by simp [hm])]
        · rw [if_neg hm, if_pos ⟨rfl, hm⟩]
  have := C82_step (fieldStep (fun i => (cs i).coord) bound) prob tran start pscale a hs ha hu FDraw.t l x y ⟨u, t⟩
    hl hstep
  unfold Spec.chains
  simpa only [hw] using this

/-! ### Which values are reached -/

/-- Values in the region from which those of `A` are fewer than `k` steps away in every
coordinate. -/
def nearBy {n : ℕ} (cs : Fin n → Spec.Declared) (bound : Bool) (A : Set (Fin n → ℝ)) (k : ℕ) : Set (Fin n → ℝ) :=
  {s | s ∈ Spec.region cs bound ∧ ∃ a ∈ A, ∀ i, |s i - a i| < k * |(cs i).d|}

theorem memF_convex (s : FSet) (x y z : ℝ) (hx : Spec.MemF s x) (hy : Spec.MemF s y)
    (hz : (x ≤ z ∧ z ≤ y) ∨ (y ≤ z ∧ z ≤ x)) : Spec.MemF s z := by
  have key : ∀ x y, x ≤ z → z ≤ y → Spec.MemF s x → Spec.MemF s y → Spec.MemF s z := by
    intro x y h1 h2 hx hy
    have h1' : (x : EReal) ≤ z := EReal.coe_le_coe_iff.mpr h1
    have h2' : (z : EReal) ≤ y := EReal.coe_le_coe_iff.mpr h2
    rcases s with ⟨a, b⟩ | ⟨⟨a, ae⟩, ⟨b, be⟩⟩
    · exact ⟨hx.1.trans_le h1', h2'.trans_lt hy.2⟩
    · by_cases h : a ≤ b <;> cases ae <;> cases be <;>
        simp only [Spec.MemF, h, if_true, if_false, Spec.above, Spec.below, Bool.false_eq_true] at hx hy ⊢ <;>
        first
        | exact ⟨hx.1.trans_le h1', h2'.trans_lt hy.2⟩
        | exact ⟨hx.1.trans_le h1', h2'.trans hy.2⟩
        | exact ⟨hx.1.trans h1', h2'.trans_lt hy.2⟩
        | exact ⟨hx.1.trans h1', h2'.trans hy.2⟩
  rcases hz with h | h
  · exact key x y h.1 h.2 hx hy
  · exact key y x h.1 h.2 hy hx

theorem memF_open (s : FSet) (ho : Spec.Open s) : IsOpen {x : ℝ | Spec.MemF s x} := by
  have h1 : ∀ a : EReal, IsOpen {x : ℝ | a < x} := fun a => isOpen_lt continuous_const continuous_coe_real_ereal
  have h3 : ∀ a : EReal, IsOpen {x : ℝ | (x : EReal) < a} := fun a =>
    isOpen_lt continuous_coe_real_ereal continuous_const
  rcases s with ⟨a, b⟩ | ⟨⟨a, ae⟩, ⟨b, be⟩⟩
  · exact (h1 _).inter (h3 _)
  · obtain ⟨e1, e2⟩ := ho
    simp only at e1 e2
    subst e1 e2
    by_cases h : a ≤ b <;>
      simp only [Spec.MemF, h, if_true, if_false, Spec.above, Spec.below] <;>
      exact (h1 _).inter (h3 _)

theorem region_open {n : ℕ} (cs : Fin n → Spec.Declared) (bound : Bool)
    (hopen : bound = true → ∀ i, Spec.Open (cs i).set) : IsOpen (Spec.region cs bound) := by
  by_cases hb : bound = true
  · have : Spec.region cs bound = ⋂ i, {x : Fin n → ℝ | Spec.MemF (cs i).set (x i)} := by
      ext x
      simp [Spec.region, hb]
    rw [this]
    exact isOpen_iInter_of_finite fun i => (memF_open _ (hopen hb i)).preimage
      (continuous_apply (A := fun _ : Fin n => ℝ) i)
  · have : Spec.region cs bound = Set.univ := by
      ext x
      simp [Spec.region, hb]
    rw [this]
    exact isOpen_univ

theorem nearBy_open {n : ℕ} (cs : Fin n → Spec.Declared) (bound : Bool)
    (hopen : bound = true → ∀ i, Spec.Open (cs i).set) (A : Set (Fin n → ℝ)) (k : ℕ) :
    IsOpen (nearBy cs bound A k) := by
  have : nearBy cs bound A k = Spec.region cs bound ∩
      ⋃ a ∈ A, ⋂ i, {s : Fin n → ℝ | |s i - a i| < k * |(cs i).d|} := by
    ext s
    simp [nearBy]
  rw [this]
  refine (region_open cs bound hopen).inter (isOpen_biUnion fun a _ => isOpen_iInter_of_finite fun i => ?_)
  exact isOpen_lt ((continuous_apply i).sub continuous_const).abs continuous_const

theorem plain_steps {n : ℕ} (cs : Fin n → Spec.Declared) (bound : Bool)
    (hopen : bound = true → ∀ i, Spec.Open (cs i).set) (huf : ∀ i, (cs i).uf = none) :
    (fun (x u : Fin n → ℝ) i => floatStep (cs i).coord bound (x i) (u i)) =
      walkTo (fun i => {s | bound = true → Spec.MemF (cs i).set s}) fun i => addend (cs i) := by
  classical
  funext s u i
  simp only [walkTo, Set.mem_setOf_eq]
  cases hb : bound with
  | false =>
      rw [floatStep_free, huf i]
      simp [UFun.inv, UFun.fwd]
  | true =>
      rw [floatStep_bound _ (hopen hb i), huf i]
      simp only [true_imp_iff, UFun.inv, UFun.fwd, id]
      by_cases hm : Spec.MemF (cs i).set (s i + addend (cs i) (u i)) <;> simp only [hm, if_true, if_false]

theorem afterF_pos {n : ℕ} (cs : Fin n → Spec.Declared) (bound : Bool) (hun : ∀ i, (cs i).uniform = true)
    (hd : ∀ i, (cs i).d ≠ 0) {w : (Fin n → ℝ) → ℝ} (hw : Measurable w)
    (hpos : ∀ x ∈ Spec.region cs bound, 0 < w x) {F : (Fin n → ℝ) → ENNReal} (hF : Measurable F)
    {O : Set (Fin n → ℝ)} (hO : IsOpen O) (hsub : O ⊆ Spec.region cs bound) (hFO : ∀ z ∈ O, 0 < F z)
    (s z : Fin n → ℝ) (hz : z ∈ O) (hsz : ∀ i, |s i - z i| < |(cs i).d|) :
    0 < afterF (cubeLaw n) w (walkTo (fun i => {s | bound = true → Spec.MemF (cs i).set s}) fun i => addend (cs i))
      F s := by
  classical
  set B : Fin n → Set ℝ := fun i => {s | bound = true → Spec.MemF (cs i).set s} with hBdef
  have hB : ∀ i, MeasurableSet (B i) := by
    intro i
    by_cases hb : bound = true
    · simp only [hBdef, hb, true_imp_iff]
      exact memF_measurable (cs i).set
    · simp [hBdef, hb]
  have hmv := (walkTo_measurable hB fun i => addend_measurable (cs i)).comp
    (measurable_const (a := s).prodMk measurable_id)
  have hmv' : Measurable fun u => walkTo B (fun i => addend (cs i)) s u := hmv
  have hr : Measurable fun u => Spec.ratio (w s) (w (walkTo B (fun i => addend (cs i)) s u)) :=
    ratio_measurable.comp (measurable_const.prodMk (hw.comp hmv'))
  have hf : Measurable fun u => ENNReal.ofReal (Spec.ratio (w s) (w (walkTo B (fun i => addend (cs i)) s u))) *
      F (walkTo B (fun i => addend (cs i)) s u) +
      ENNReal.ofReal (1 - Spec.ratio (w s) (w (walkTo B (fun i => addend (cs i)) s u))) * F s :=
    ((ENNReal.measurable_ofReal.comp hr).mul (hF.comp hmv')).add
      ((ENNReal.measurable_ofReal.comp (measurable_const.sub hr)).mul measurable_const)
  let U : Set (Fin n → ℝ) := (Set.univ.pi fun _ => Set.Ioo 0 1) ∩
    {u | (fun i => s i + (-(cs i).d + 2 * (cs i).d * u i)) ∈ O}
  have hUo : IsOpen U := by
    refine (isOpen_set_pi Set.finite_univ fun _ _ => isOpen_Ioo).inter (hO.preimage ?_)
    exact continuous_pi fun i => continuous_const.add (continuous_const.add
      (continuous_const.mul (continuous_apply (A := fun _ : Fin n => ℝ) i)))
  have hUn : U.Nonempty := by
    refine ⟨fun i => (z i - s i + (cs i).d) / (2 * (cs i).d), fun i _ => ?_, ?_⟩
    · have h := abs_lt.mp (hsz i)
      rcases lt_or_gt_of_ne (hd i) with hneg | hp
      · rw [abs_of_neg hneg] at h
        exact ⟨div_pos_of_neg_of_neg (by linarith) (by linarith), by
          rw [div_lt_one_of_neg (by linarith)]; linarith⟩
      · rw [abs_of_pos hp] at h
        exact ⟨div_pos (by linarith) (by linarith), by rw [div_lt_one (by linarith)]; linarith⟩
    · have : (fun i => s i + (-(cs i).d + 2 * (cs i).d * ((z i - s i + (cs i).d) / (2 * (cs i).d)))) = z := by
        funext i
        have := hd i
        field_simp
        ring
      simp only [Set.mem_setOf_eq, this]
      exact hz
  have hUs : U ⊆ Set.univ.pi fun _ => Set.Ico 0 1 := fun u hu i hi => ⟨(hu.1 i hi).1.le, (hu.1 i hi).2⟩
  refine lt_of_lt_of_le ?_ (lintegral_mono_set hUs)
  rw [lintegral_pos_iff_support hf]
  refine (hUo.measure_pos volume hUn).trans_le ?_
  rw [Measure.restrict_apply (measurableSet_support hf)]
  refine measure_mono fun u hu => ⟨?_, hu⟩
  have hy : walkTo B (fun i => addend (cs i)) s u = fun i => s i + (-(cs i).d + 2 * (cs i).d * u i) := by
    funext i
    have hin : s i + (-(cs i).d + 2 * (cs i).d * u i) ∈ B i := fun hb => hsub hu.2 hb i
    simp only [walkTo, addend, hun i, if_true]
    rw [if_pos hin]
  have hyO : walkTo B (fun i => addend (cs i)) s u ∈ O := by rw [hy]; exact hu.2
  have h1 : 0 < Spec.ratio (w s) (w (walkTo B (fun i => addend (cs i)) s u)) :=
    lt_min one_pos (div_pos (hpos _ (hsub hyO)) (npz_pos.trans_le (le_max_left _ _)))
  have h2 := ENNReal.mul_pos (ENNReal.ofReal_pos.mpr h1).ne' (hFO _ hyO).ne'
  exact (lt_of_lt_of_le h2 (le_add_right le_rfl)).ne'

/-- C83: with uniform steps and a positive density, unbounded or within open limits, every
open set of values is reached from every value, with positive probability. -/
theorem C83_reached {n : ℕ} (cs : Fin n → Spec.Declared) (bound : Bool) (prob : (Fin n → ℝ) → ℝ) (pscale : PSpec)
    (w : (Fin n → ℝ) → ℝ) (tran : ℝ) (start : Fin n → ℝ) (hst : Spec.Stored prob pscale w) (hw : Measurable w)
    (hopen : bound = true → ∀ i, Spec.Open (cs i).set) (huf : ∀ i, (cs i).uf = none)
    (hun : ∀ i, (cs i).uniform = true) (hd : ∀ i, (cs i).d ≠ 0) (hpos : ∀ x ∈ Spec.region cs bound, 0 < w x)
    (l : OPQR (Row (Fin n → ℝ))) (x : Fin n → ℝ) (hl : Spec.At prob l x) (hx : x ∈ Spec.region cs bound)
    (A : Set (Fin n → ℝ)) (hA : IsOpen A) (a : Fin n → ℝ) (ha : a ∈ A) (ha' : a ∈ Spec.region cs bound) :
    ∃ k, 0 < Spec.within (Spec.chains cs bound prob tran start pscale) k l A := by
  set T := afterF (cubeLaw n) w (walkTo (fun i => {s | bound = true → Spec.MemF (cs i).set s})
    fun i => addend (cs i)) with hT
  have hB : ∀ i, MeasurableSet {s | bound = true → Spec.MemF (cs i).set s} := by
    intro i
    by_cases hb : bound = true
    · simp only [hb, true_imp_iff]
      exact memF_measurable (cs i).set
    · simp [hb]
  have hFm : ∀ k, Measurable (T^[k] (A.indicator 1)) := by
    intro k
    induction k with
    | zero => exact measurable_one.indicator hA.measurableSet
    | succ k ih =>
        rw [Function.iterate_succ_apply']
        exact afterF_measurable hw (walkTo_measurable hB fun i => addend_measurable _) ih
  have key : ∀ k, ∀ s ∈ nearBy cs bound (A ∩ Spec.region cs bound) (k + 1), 0 < (T^[k + 1] (A.indicator 1)) s := by
    intro k
    induction k with
    | zero =>
        rintro s ⟨hs, b, hb, hsb⟩
        rw [Function.iterate_succ_apply']
        refine afterF_pos cs bound hun hd hw hpos (hFm 0) (hA.inter (region_open cs bound hopen))
          Set.inter_subset_right (fun z hz => ?_) s b hb (fun i => by simpa using hsb i)
        simp [Set.indicator_of_mem hz.1]
    | succ k ih =>
        rintro s ⟨hs, b, hb, hsb⟩
        rw [Function.iterate_succ_apply']
        have hk : (0:ℝ) < k + 1 := by positivity
        have hk2 : (0:ℝ) < k + 1 + 1 := by positivity
        refine afterF_pos cs bound hun hd hw hpos (hFm (k + 1)) (nearBy_open cs bound hopen _ (k + 1))
          (fun z hz => hz.1) ih s (fun i => b i + (s i - b i) * ((k + 1) / (k + 1 + 1))) ⟨?_, b, hb, fun i => ?_⟩
          fun i => ?_
        · intro hbd i
          have hc0 : (0:ℝ) ≤ (k + 1) / (k + 1 + 1) := (div_pos hk hk2).le
          have hc1 : ((k:ℝ) + 1) / (k + 1 + 1) ≤ 1 := by rw [div_le_one hk2]; linarith
          refine memF_convex _ (s i) (b i) _ (hs hbd i) (hb.2 hbd i) ?_
          rcases le_total (s i) (b i) with h | h
          · left; constructor <;> nlinarith
          · right; constructor <;> nlinarith
        · have h1 := hsb i
          push_cast at h1 ⊢
          rw [add_sub_cancel_left, abs_mul, abs_of_pos (div_pos hk hk2)]
          rw [mul_div_assoc', div_lt_iff₀ hk2]
          nlinarith
        · have h1 := hsb i
          push_cast at h1
          have h2 : s i - (b i + (s i - b i) * ((k + 1) / (k + 1 + 1))) = (s i - b i) / (k + 1 + 1) := by
            field_simp
            ring
          rw [h2, abs_div, abs_of_pos hk2, div_lt_iff₀ hk2]
          linarith
  obtain ⟨k, hk⟩ := exists_nat_gt (∑ i, |x i - a i| / |(cs i).d|)
  refine ⟨k + 1, ?_⟩
  rw [within_eq cs bound hst tran start A (k + 1) l x hl, plain_steps cs bound hopen huf]
  refine key k x ⟨hx, a, ⟨ha, ha'⟩, fun i => ?_⟩
  have h1 : |x i - a i| / |(cs i).d| ≤ ∑ i, |x i - a i| / |(cs i).d| :=
    Finset.single_le_sum (f := fun i => |x i - a i| / |(cs i).d|) (fun i _ => by positivity) (Finset.mem_univ i)
  have h2 : |x i - a i| / |(cs i).d| < (k + 1 : ℕ) := by push_cast; linarith
  rwa [div_lt_iff₀ (abs_pos.mpr (hd i))] at h2

/-! ### Where the target is not kept -/

theorem means_one (f : ℝ → ENNReal) : Spec.means (fun u : Fin 1 → ℝ => f (u 0)) = Spec.mean f := by
  unfold Spec.means Spec.mean
  have h := (volume_preserving_funUnique (Fin 1) ℝ).setLIntegral_comp_preimage_emb
    (MeasurableEquiv.measurableEmbedding _) f (Set.Ico 0 1)
  rw [← h]
  congr 1
  congr 1
  ext u
  simp [Set.mem_pi, MeasurableEquiv.funUnique]

/-- A single variable over `[lo, hi]`, both limits included, with uniform steps `[d]`. -/
noncomputable def Spec.closed (lo hi d : ℝ) : Fin 1 → Spec.Declared :=
  fun _ => ⟨.list ⟨lo, false⟩ ⟨hi, false⟩, none, false, false, hi - lo, true, d⟩

theorem closed_step (lo hi d : ℝ) (h : lo ≤ hi) (i : Fin 1) (v u : ℝ) :
    floatStep (Spec.closed lo hi d i).coord true v u = max lo (min hi (v + (-d + 2 * d * u))) := by
  have h' : ¬ ((hi : ℝ) : EReal) < lo := not_lt.mpr (EReal.coe_le_coe_iff.mpr h)
  have hM : ∀ a b : ℝ, npMax a b = max a b := by
    intro a b
    simp only [npMax, EReal.coe_le_coe_iff, EReal.toReal_coe]
    split
    · rename_i h; rw [max_eq_right h]
    · rename_i h; rw [max_eq_left (not_le.mp h).le]
  have hm : ∀ a b : ℝ, npMin a b = min a b := by
    intro a b
    simp only [npMin, EReal.coe_le_coe_iff, EReal.toReal_coe]
    split
    · rename_i h; rw [min_eq_right h]
    · rename_i h; rw [min_eq_left (not_le.mp h).le]
  simp [floatStep, Spec.closed, Spec.Declared.coord, evalDelta, orDefault, isDefaultScalar, FloatVar.applyScalar,
    effectiveDelta, DeltaSpec.truthy, shift, FloatVar.boundScalar, FloatVar.make, FSet.toList, h', hM, hm]

/-- C83: within limits that are included, the chain stops at a limit with positive
probability from every value closer to it than the largest step. -/
theorem C83_closed_collects (lo hi d : ℝ) (hlh : lo < hi) (hd : 0 < d) (prob : (Fin 1 → ℝ) → ℝ) (pscale : PSpec)
    (w : (Fin 1 → ℝ) → ℝ) (tran : ℝ) (start : Fin 1 → ℝ) (hst : Spec.Stored prob pscale w)
    (hpos : 0 < w fun _ => hi) (l : OPQR (Row (Fin 1 → ℝ))) (x : Fin 1 → ℝ) (hl : Spec.At prob l x)
    (hx : hi - d < x 0) (hx' : x 0 ≤ hi) :
    0 < Spec.within (Spec.chains (Spec.closed lo hi d) true prob tran start pscale) 1 l {fun _ => hi} := by
  rw [within_eq _ _ hst tran start _ 1 l x hl]
  simp only [Function.iterate_one, afterF, closed_step lo hi d hlh.le]
  set r := Spec.ratio (w x) (w fun _ => hi) with hr
  have hr0 : 0 < r := lt_min one_pos (div_pos hpos (npz_pos.trans_le (le_max_left _ _)))
  set c := (hi - x 0 + d) / (2 * d) with hc
  have hc1 : c < 1 := by rw [hc, div_lt_one (by linarith)]; linarith
  have hc0 : 0 ≤ c := div_nonneg (by linarith) (by linarith)
  have hy : ∀ u : Fin 1 → ℝ, c ≤ u 0 → (fun i => max lo (min hi (x i + (-d + 2 * d * u i)))) = fun _ : Fin 1 => hi := by
    intro u hu
    funext i
    have hi0 : i = 0 := Subsingleton.elim _ _
    subst hi0
    have h1 : hi - x 0 + d ≤ u 0 * (2 * d) := by
      rw [hc, div_le_iff₀ (by linarith)] at hu
      exact hu
    rw [min_eq_left (by linarith), max_eq_right hlh.le]
  calc (0 : ENNReal) < ENNReal.ofReal r * volume (Set.univ.pi fun _ : Fin 1 => Set.Ico c 1) := by
        rw [Real.volume_pi_Ico]
        simp [hr0, hc1]
    _ = ∫⁻ _ in Set.univ.pi fun _ : Fin 1 => Set.Ico c 1, ENNReal.ofReal r := by rw [setLIntegral_const]
    _ ≤ ∫⁻ u in Set.univ.pi fun _ : Fin 1 => Set.Ico c 1, _ := by
        refine setLIntegral_mono' (MeasurableSet.univ_pi fun _ => measurableSet_Ico) fun u hu => ?_
        rw [hy u (hu 0 trivial).1, ← hr, Set.indicator_of_mem (Set.mem_singleton _), Pi.one_apply, mul_one]
        exact le_add_right (le_refl _)
    _ ≤ _ := lintegral_mono_set (Set.pi_mono fun _ _ => Set.Ico_subset_Ico_left hc0)

/-- C83, for any limits: a Metropolis chain of float variables keeps the target. -/
def C83_claim : Prop :=
  ∀ (n : ℕ) (cs : Fin n → Spec.Declared) (bound : Bool) (prob : (Fin n → ℝ) → ℝ) (pscale : PSpec)
    (w : (Fin n → ℝ) → ℝ) (tran : ℝ) (start : Fin n → ℝ), Spec.Stored prob pscale w → Measurable w →
    (∀ i, Spec.Undone (cs i)) →
    Spec.KeepsDensity (Spec.chains cs bound prob tran start pscale) prob w (Spec.back cs) (Spec.region cs bound)

/-- What holds of it for limits that are included: no positive target is kept by bounded
uniform steps, as the chain collects at the limits. -/
theorem C83_closed_fails (lo hi d : ℝ) (hlh : lo < hi) (hd : 0 < d) (prob : (Fin 1 → ℝ) → ℝ) (pscale : PSpec)
    (w : (Fin 1 → ℝ) → ℝ) (tran : ℝ) (start : Fin 1 → ℝ) (hst : Spec.Stored prob pscale w) (hw : Measurable w)
    (hpos : ∀ x : Fin 1 → ℝ, lo ≤ x 0 → x 0 ≤ hi → 0 < w x)
    (l : (Fin 1 → ℝ) → OPQR (Row (Fin 1 → ℝ))) (hl : ∀ x, Spec.At prob (l x) x) :
    ¬ Spec.KeepsDensity (Spec.chains (Spec.closed lo hi d) true prob tran start pscale) prob w
      (Spec.back (Spec.closed lo hi d)) (Spec.region (Spec.closed lo hi d) true) := by
  intro h
  have hk := h l hl 1 {fun _ => hi} (measurableSet_singleton _)
  have hback : Spec.back (Spec.closed lo hi d) = id := rfl
  have hreg : ∀ x : Fin 1 → ℝ, x ∈ Spec.region (Spec.closed lo hi d) true ↔ lo ≤ x 0 ∧ x 0 ≤ hi := by
    intro x
    have h' : ((lo : ℝ) : EReal) ≤ hi := EReal.coe_le_coe_iff.mpr hlh.le
    simp [Spec.region, Spec.closed, Spec.MemF, Spec.above, Spec.below, h']
  simp only [hback, id] at hk
  have hzero : ∫⁻ s in {s | s ∈ Spec.region (Spec.closed lo hi d) true ∩ {fun _ => hi}}, ENNReal.ofReal (w s) = 0 := by
    refine setLIntegral_measure_zero _ _ (measure_mono_null (t := {fun _ => hi}) (fun s hs => hs.2) ?_)
    exact measure_singleton _
  rw [hzero] at hk
  have hstep : Measurable fun p : (Fin 1 → ℝ) × (Fin 1 → ℝ) => fun i =>
      floatStep (Spec.closed lo hi d i).coord true (p.1 i) (p.2 i) := by
    simp only [closed_step lo hi d hlh.le]
    refine measurable_pi_iff.mpr fun i => measurable_const.max (measurable_const.min ?_)
    exact ((measurable_pi_apply i).comp measurable_fst).add
      (measurable_const.add (measurable_const.mul ((measurable_pi_apply i).comp measurable_snd)))
  have hm : Measurable fun s => ENNReal.ofReal (w s) *
      Spec.within (Spec.chains (Spec.closed lo hi d) true prob tran start pscale) 1 (l s) {fun _ => hi} := by
    simp only [within_eq _ _ hst tran start _ 1 (l _) _ (hl _), Function.iterate_one]
    exact (ENNReal.measurable_ofReal.comp hw).mul (afterF_measurable hw hstep
      (measurable_one.indicator (measurableSet_singleton _)))
  rw [lintegral_eq_zero_iff hm] at hk
  have hsub : (Set.univ.pi fun _ : Fin 1 => Set.Ioo (max lo (hi - d)) hi) ⊆
      {s | s ∈ Spec.region (Spec.closed lo hi d) true} := by
    intro s hs
    have := hs 0 trivial
    exact (hreg s).mpr ⟨(le_max_left _ _).trans this.1.le, this.2.le⟩
  have hk2 : ∀ᵐ s ∂volume.restrict (Set.univ.pi fun _ : Fin 1 => Set.Ioo (max lo (hi - d)) hi),
      ENNReal.ofReal (w s) *
        Spec.within (Spec.chains (Spec.closed lo hi d) true prob tran start pscale) 1 (l s) {fun _ => hi} = 0 :=
    ae_restrict_of_ae_restrict_of_subset hsub hk
  rw [ae_restrict_iff' (MeasurableSet.univ_pi fun _ => measurableSet_Ioo), ae_iff] at hk2
  have : volume (Set.univ.pi fun _ : Fin 1 => Set.Ioo (max lo (hi - d)) hi) = 0 := by
    refine measure_mono_null (fun s hs => ?_) hk2
    intro (hcon : s ∈ _ → _)
    have hs0 := hs 0 trivial
    have hin := (hreg s).mp (hsub hs)
    have hp := C83_closed_collects lo hi d hlh hd prob pscale w tran start hst
      (hpos _ hlh.le le_rfl) (l s) s (hl s) ((le_max_right _ _).trans_lt hs0.1) hs0.2.le
    have := hcon hs
    simp only [Pi.zero_apply, mul_eq_zero, ENNReal.ofReal_eq_zero] at this
    rcases this with h | h
    · exact absurd (hpos s hin.1 hin.2) (not_lt.mpr h)
    · exact hp.ne' h
  rw [Real.volume_pi_Ioo] at this
  simp at this
  rcases this with h | h
  · linarith
  · linarith

/-- C83 fails: on [0, 1] with the flat density and steps `[1/2]`. -/
theorem C83_claim_fails : ¬ C83_claim := fun h =>
  C83_closed_fails 0 1 (1/2) one_pos (by norm_num) (fun _ => 1) (.flt 1) (fun _ => 1) 1 0 one_stored measurable_const
    (fun _ _ _ => one_pos) (fun x => ⟨none, some ⟨x, .scalar 1⟩, some ⟨x, .scalar 1⟩, none⟩)
    (fun x => ⟨rfl, _, rfl⟩)
    (h 1 _ true _ _ _ _ _ one_stored measurable_const fun _ => ⟨measurable_id, fun _ => rfl⟩)

/-- C83, with transforms: the density of the values themselves is kept. -/
def C83_plain_claim : Prop :=
  ∀ (n : ℕ) (cs : Fin n → Spec.Declared) (bound : Bool) (prob : (Fin n → ℝ) → ℝ) (pscale : PSpec)
    (w : (Fin n → ℝ) → ℝ) (tran : ℝ) (start : Fin n → ℝ), Spec.Stored prob pscale w → Measurable w →
    (bound = true → ∀ i, Spec.Open (cs i).set) → (∀ i, Spec.Undone (cs i)) →
    Spec.KeepsDensity (Spec.chains cs bound prob tran start pscale) prob w id (Spec.region cs bound)

/-- It holds without transforms. -/
theorem C83_plain_partial {n : ℕ} (cs : Fin n → Spec.Declared) (bound : Bool) (prob : (Fin n → ℝ) → ℝ)
    (pscale : PSpec) (w : (Fin n → ℝ) → ℝ) (tran : ℝ) (start : Fin n → ℝ) (hst : Spec.Stored prob pscale w)
    (hw : Measurable w) (hopen : bound = true → ∀ i, Spec.Open (cs i).set) (huf : ∀ i, (cs i).uf = none) :
    Spec.KeepsDensity (Spec.chains cs bound prob tran start pscale) prob w id (Spec.region cs bound) := by
  have := C83_keeps cs bound prob pscale w tran start hst hw hopen fun i => by
    rw [Spec.Undone, huf i]
    exact ⟨measurable_id, fun _ => rfl⟩
  have hb : Spec.back cs = id := by
    funext s i
    simp [Spec.back, huf i, UFun.inv]
  rwa [hb] at this

/-- A variable between 1 and 4 with the logarithm as transform and steps that double or halve. -/
noncomputable def doubling : Fin 1 → Spec.Declared :=
  fun _ => ⟨.tuple (1 : ℝ) (4 : ℝ), some (Real.log, Real.exp), false, false, 0, false, Real.log 2⟩

theorem doubling_mem (z : ℝ) : Spec.MemF (.tuple (1 : ℝ) (4 : ℝ)) z ↔ 1 < z ∧ z < 4 := by
  have h1 : min ((1 : ℝ) : EReal) (4 : ℝ) = (1 : ℝ) := min_eq_left (EReal.coe_le_coe_iff.mpr (by norm_num))
  have h2 : max ((1 : ℝ) : EReal) (4 : ℝ) = (4 : ℝ) := max_eq_right (EReal.coe_le_coe_iff.mpr (by norm_num))
  simp only [Spec.MemF, h1, h2, EReal.coe_lt_coe_iff]

theorem doubling_step (i : Fin 1) (v u : ℝ) (hv : 0 < v) :
    floatStep (doubling i).coord true v u = open Classical in
      if u > 1/2 then (if 1 < 2 * v ∧ 2 * v < 4 then 2 * v else v)
      else if 1 < v / 2 ∧ v / 2 < 4 then v / 2 else v := by
  rw [floatStep_bound (doubling i) trivial]
  have hd : Spec.MemF (doubling i).set = fun z => 1 < z ∧ z < 4 := by
    funext z
    exact propext (doubling_mem z)
  have he : (doubling i).uf.inv ((doubling i).uf.fwd v + addend (doubling i) u) = if u > 1/2 then 2 * v else v / 2 := by
    simp only [doubling, UFun.inv, UFun.fwd, addend, Bool.false_eq_true, if_false]
    by_cases h : u > 1/2
    · rw [if_pos h, if_pos h, Real.exp_add, Real.exp_log hv, Real.exp_log two_pos, mul_comm]
    · rw [if_neg h, if_neg h, Real.exp_add, Real.exp_log hv, Real.exp_neg, Real.exp_log two_pos, div_eq_mul_inv]
  rw [hd, he]
  by_cases h : u > 1/2
  · simp only [if_pos h]
  · simp only [if_neg h]

/-- With transforms it fails: a flat density on (1, 4) is not kept by doubling and halving;
after one step, half the chains are below 2. -/
theorem C83_plain_claim_fails : ¬ C83_plain_claim := by
  classical
  intro h
  have hk := h 1 doubling true (fun _ => 1) (.flt 1) (fun _ => 1) 1 0 one_stored measurable_const
    (fun _ _ => trivial) (fun _ => ⟨Real.measurable_exp, Real.log_exp⟩)
    (fun x => ⟨none, some ⟨x, .scalar 1⟩, some ⟨x, .scalar 1⟩, none⟩) (fun x => ⟨rfl, _, rfl⟩)
    1 {x | x 0 < 2} ((measurable_pi_apply 0) measurableSet_Iio)
  have hreg : {s : Fin 1 → ℝ | s ∈ Spec.region doubling true} = Set.univ.pi fun _ => Set.Ioo 1 4 := by
    ext s
    have : ∀ i, (doubling i).set = .tuple (1 : ℝ) (4 : ℝ) := fun _ => rfl
    simp only [Spec.region, this, doubling_mem, true_imp_iff, Set.mem_setOf_eq, Set.mem_pi, Set.mem_univ, Set.mem_Ioo]
  have hreg2 : {s : Fin 1 → ℝ | s ∈ Spec.region doubling true ∩ {x | x 0 < 2}} = Set.univ.pi fun _ => Set.Ioo 1 2 := by
    ext s
    have := Set.ext_iff.mp hreg s
    simp only [Set.mem_setOf_eq] at this
    simp only [Set.mem_setOf_eq, Set.mem_inter_iff, this, Set.mem_pi, Set.mem_univ, true_imp_iff, Set.mem_Ioo,
      Fin.forall_fin_one]
    constructor
    · rintro ⟨⟨a, b⟩, c⟩; exact ⟨a, c⟩
    · rintro ⟨a, c⟩; exact ⟨⟨a, by linarith⟩, c⟩
  have hratio : Spec.ratio 1 1 = 1 := by simp [Spec.ratio, max_eq_right npz_lt_one.le]
  have hhalf : ∀ s : Fin 1 → ℝ, 1 < s 0 → s 0 < 4 → s 0 ≠ 2 →
      Spec.within (Spec.chains doubling true (fun _ => 1) 1 0 (.flt 1)) 1
        ⟨none, some ⟨s, .scalar 1⟩, some ⟨s, .scalar 1⟩, none⟩ {x | x 0 < 2} = 1 / 2 := by
    intro s h1 h4 h2
    rw [within_eq doubling true one_stored 1 0 _ 1 _ s ⟨rfl, _, rfl⟩]
    simp only [Function.iterate_one, afterF, hratio, ENNReal.ofReal_one, one_mul, sub_self, ENNReal.ofReal_zero,
      zero_mul, add_zero]
    have hf : ∀ u : Fin 1 → ℝ, ({x : Fin 1 → ℝ | x 0 < 2}.indicator (1 : (Fin 1 → ℝ) → ENNReal)
        fun i => floatStep (doubling i).coord true (s i) (u i)) =
        (fun u : ℝ => if u > 1/2 then (0 : ENNReal) else 1) (u 0) := by
      intro u
      have hs := doubling_step 0 (s 0) (u 0) (by linarith)
      rw [Set.indicator_apply]
      simp only [Set.mem_setOf_eq, hs, Pi.one_apply]
      by_cases hu : u 0 > 1/2
      · simp only [if_pos hu]
        rw [if_neg]
        split <;> intro hcon <;> rename_i hh
        · linarith
        · exact hh ⟨by linarith, by linarith⟩
      · simp only [if_neg hu]
        rw [if_pos]
        split <;> rename_i hh
        · linarith
        · rcases lt_or_gt_of_ne h2 with hlt | hgt
          · exact hlt
          · exact absurd ⟨by linarith, by linarith⟩ hh
    simp only [hf]
    have := means_one fun u : ℝ => if u > 1/2 then (0 : ENNReal) else 1
    rw [mean_split] at this
    simp only [Spec.means, ENNReal.zero_div, zero_add] at this ⊢
    exact this
  simp only [id, ENNReal.ofReal_one, one_mul] at hk
  rw [hreg, hreg2, setLIntegral_const, Real.volume_pi_Ioo, setLIntegral_congr_fun_ae (g := fun _ => 1/2)
    (MeasurableSet.univ_pi fun _ => measurableSet_Ioo), setLIntegral_const, Real.volume_pi_Ioo] at hk
  · simp only [Finset.univ_unique, Finset.prod_const, Finset.card_singleton, pow_one] at hk
    have e1 : ENNReal.ofReal (4 - 1) = 3 := by norm_num
    have e2 : ENNReal.ofReal (2 - 1) = 1 := by norm_num
    rw [e1, e2, one_mul] at hk
    have := congrArg ENNReal.toReal hk
    simp at this
    norm_num at this
  · have hne : ∀ᵐ s : Fin 1 → ℝ, s 0 ≠ 2 := by
      rw [volume_pi]
      exact Measure.ae_eval_ne _ 0 2
    filter_upwards [hne] with s hs hin
    have := hin 0 trivial
    exact hhalf s this.1 this.2 hs

/-! ### Cases of the hypotheses -/

/-- A density of two variables, on scale 2. -/
theorem bowl_stored : Spec.Stored (fun x : Fin 2 → ℝ => 1 + x 0 ^ 2 + x 1 ^ 2) (.flt 2)
    (fun x => 2 * (1 + x 0 ^ 2 + x 1 ^ 2)) := by
  refine ⟨⟨.lin 2, by simp [evalPscale], by simp [Spec.Valid], fun _ => trivial, fun x => ?_⟩, fun x => ?_⟩
  · simp only [Spec.value]
  · positivity

/-- Two variables within open limits, one stepping uniformly, the other by doubling and
halving. -/
example : Spec.KeepsDensity
    (Spec.chains ![⟨.tuple (0 : ℝ) (1 : ℝ), none, false, false, 1, true, 1/10⟩, doubling 0] true
      (fun x : Fin 2 → ℝ => 1 + x 0 ^ 2 + x 1 ^ 2) 1 0 (.flt 2))
    (fun x => 1 + x 0 ^ 2 + x 1 ^ 2) (fun x => 2 * (1 + x 0 ^ 2 + x 1 ^ 2))
    (Spec.back ![⟨.tuple (0 : ℝ) (1 : ℝ), none, false, false, 1, true, 1/10⟩, doubling 0])
    (Spec.region ![⟨.tuple (0 : ℝ) (1 : ℝ), none, false, false, 1, true, 1/10⟩, doubling 0] true) := by
  refine C83_keeps _ _ _ _ _ _ _ bowl_stored ?_ (fun _ i => ?_) (fun i => ?_)
  · exact measurable_const.mul ((measurable_const.add ((measurable_pi_apply 0).pow_const 2)).add
      ((measurable_pi_apply 1).pow_const 2))
  · fin_cases i <;> trivial
  · fin_cases i
    · exact ⟨measurable_id, fun _ => rfl⟩
    · exact ⟨Real.measurable_exp, Real.log_exp⟩

/-- From the middle of (0, 1), values near the ends are reached. -/
example (l : OPQR (Row (Fin 1 → ℝ))) (hl : Spec.At (fun _ => 1) l fun _ => 1/2) :
    ∃ k, 0 < Spec.within (Spec.chains (fun _ : Fin 1 => ⟨.tuple (0 : ℝ) (1 : ℝ), none, false, false, 1, true, 1/10⟩)
      true (fun _ => 1) 1 0 (.flt 1)) k l {x | 99/100 < x 0} := by
  have hm : ∀ z : ℝ, Spec.MemF (.tuple (0 : ℝ) (1 : ℝ)) z ↔ 0 < z ∧ z < 1 := by
    intro z
    have h1 : min ((0 : ℝ) : EReal) (1 : ℝ) = (0 : ℝ) := min_eq_left (EReal.coe_le_coe_iff.mpr (by norm_num))
    have h2 : max ((0 : ℝ) : EReal) (1 : ℝ) = (1 : ℝ) := max_eq_right (EReal.coe_le_coe_iff.mpr (by norm_num))
    simp only [Spec.MemF, h1, h2, EReal.coe_lt_coe_iff]
  exact C83_reached (fun _ : Fin 1 => ⟨.tuple (0 : ℝ) (1 : ℝ), none, false, false, 1, true, 1/10⟩) true
    _ _ _ 1 0 one_stored measurable_const (fun _ _ => trivial) (fun _ => rfl) (fun _ => rfl)
    (fun _ => by norm_num) (fun _ _ => one_pos) l _ hl (fun _ _ => (hm _).mpr (by norm_num)) _
    (isOpen_lt continuous_const (continuous_apply 0)) (fun _ => 199/200) (by norm_num)
    (fun _ _ => (hm _).mpr (by norm_num))

/-- The region of these is what was declared. -/
example : ![1/2, 3] ∈ Spec.region ![⟨.tuple (0 : ℝ) (1 : ℝ), none, false, false, 1, true, 1/10⟩, doubling 0] true ∧
    ![1/2, 4] ∉ Spec.region ![⟨.tuple (0 : ℝ) (1 : ℝ), none, false, false, 1, true, 1/10⟩, doubling 0] true := by
  have h1 : min ((0 : ℝ) : EReal) (1 : ℝ) = (0 : ℝ) := min_eq_left (EReal.coe_le_coe_iff.mpr (by norm_num))
  have h2 : max ((0 : ℝ) : EReal) (1 : ℝ) = (1 : ℝ) := max_eq_right (EReal.coe_le_coe_iff.mpr (by norm_num))
  constructor
  · intro _ i
    fin_cases i
    · simp only [Spec.MemF, Matrix.cons_val_zero, Fin.zero_eta, h1, h2, EReal.coe_lt_coe_iff]
      norm_num
    · exact (doubling_mem 3).mpr (by norm_num)
  · intro h
    have := (doubling_mem 4).mp (h rfl 1)
    norm_num at this

example (l : OPQR (Row (Fin 1 → ℝ))) (hl : Spec.At (fun _ => 1) l fun _ => 3/4) :
    0 < Spec.within (Spec.chains (Spec.closed 0 1 (1/2)) true (fun _ => 1) 1 0 (.flt 1)) 1 l {fun _ => 1} :=
  C83_closed_collects 0 1 (1/2) one_pos (by norm_num) (fun _ => 1) (.flt 1) (fun _ => 1) 1 0 one_stored one_pos l _ hl
    (by norm_num) (by norm_num)

end Probayes
