/-
C90, bounded steps: processes moved by a function of the user within the sets of their
variables.
-/
import Verif.Props.DeltaFnUp
import Verif.Lemmas.WalkFlip

namespace Probayes

open MeasureTheory

variable {n : ℕ} {Ω : Type}

/-! ### Specification -/

/-- The displaced values, of which those outside the sets are given up, each on its own. -/
noncomputable def Spec.displacedIn (cs : Fin n → Spec.Axis) (x δ : Fin n → ℝ) : Fin n → ℝ := open Classical in
  fun i => if Spec.MemF (cs i).set (Spec.displaced cs x δ i) then Spec.displaced cs x δ i else x i

/-- The values in the sets. -/
def Spec.axisBox (cs : Fin n → Spec.Axis) : _root_.Set (Fin n → ℝ) := {x | ∀ i, Spec.MemF (cs i).set (x i)}

/-- The density `w` on the region `B`, in the coordinates in which the steps are made, is kept
by the process. -/
def Spec.KeepsWeightOn [MeasurableSpace Ω] (P : Measure Ω) (R : Proc Unit (Row (Fin n → ℝ)) (DDraw Ω))
    (prob w : (Fin n → ℝ) → ℝ) (g : (Fin n → ℝ) → Fin n → ℝ) (B : _root_.Set (Fin n → ℝ)) : Prop :=
  ∀ l : (Fin n → ℝ) → OPQR (Row (Fin n → ℝ)), (∀ x, Spec.At prob (l x) x) → ∀ k A, MeasurableSet A →
    ∫⁻ s in {s | g s ∈ B}, ENNReal.ofReal (w (g s)) * Spec.arrives P R k (l (g s)) A =
      ∫⁻ s in {s | g s ∈ B ∩ A}, ENNReal.ofReal (w (g s))

/-! ### One sample -/

theorem deltaStep_bound (cs : Fin n → Spec.Axis) (ho : ∀ i, Spec.Open (cs i).set) (f : Ω → Py (DeltaRet n))
    (x δ : Fin n → ℝ) (hx : ∀ i, (cs i).uf.inv ((cs i).uf.fwd (x i)) = x i) (ω : DDraw Ω)
    (hf : f ω.d = .ok (.delta δ)) :
    deltaStep (fun i => .make (cs i).set) (fun i => (cs i).uf) true f x ω = .ok (Spec.displacedIn cs x δ) := by
  classical
  simp only [deltaStep, hf, DeltaRet.eval, bind, Except.bind, pure, Except.pure]
  congr 1
  funext i
  have hx := hx i
  by_cases h : δ i = 0
  · simp [applyNums, bareCoord, FloatVar.applyScalar, effectiveDelta, orDefault, DeltaSpec.truthy, h,
      Spec.displacedIn, Spec.displaced, hx]
  · have hsh : shift (cs i).uf (x i) (δ i) = Spec.displaced cs x δ i := by
      unfold shift Spec.displaced
      rcases (cs i).uf with _ | ⟨a, b⟩ <;> rfl
    simp only [applyNums, bareCoord, FloatVar.applyScalar, effectiveDelta, orDefault, DeltaSpec.truthy, h, ne_eq,
      not_false_eq_true, decide_true, if_true, Option.getD_some, hsh, boundScalar_open _ (ho i), Spec.displacedIn]

/-- C90, bounded steps in sets without limits of their own: each variable whose displaced value
is outside its set keeps its value in the proposal, which is judged as without bounds. -/
theorem C90_bounded_step (cs : Fin n → Spec.Axis) (ho : ∀ i, Spec.Open (cs i).set) (f : Ω → Py (DeltaRet n))
    (prob w : (Fin n → ℝ) → ℝ) (q : (Fin n → ℝ) → (Fin n → ℝ) → ℝ) (pair hastings : Bool) (start : Fin n → ℝ)
    (pscale : PSpec) (hst : Spec.Stored prob pscale w) (l : OPQR (Row (Fin n → ℝ))) (x δ : Fin n → ℝ) (ω : DDraw Ω)
    (hl : Spec.At prob l x) (hx : ∀ i, (cs i).uf.inv ((cs i).uf.fwd (x i)) = x i) (hf : f ω.d = .ok (.delta δ))
    (hj : Spec.Judgeable hastings pair pscale w q x (Spec.displacedIn cs x δ)) :
    ∃ l' smp, nextCore (Spec.mover cs true f prob q pair hastings start pscale) (some l) ω () =
        ((), some l', .ok (.sample smp)) ∧
      (ω.t ≤ Spec.ratio (w x) (w (Spec.displacedIn cs x δ)) → Spec.At prob l' (Spec.displacedIn cs x δ) ∧
        smp.v = some ⟨Spec.displacedIn cs x δ, .scalar (prob (Spec.displacedIn cs x δ))⟩) ∧
      (¬ ω.t ≤ Spec.ratio (w x) (w (Spec.displacedIn cs x δ)) → l' = l ∧ smp.v = some ⟨x, .scalar (prob x)⟩) :=
  mover_step cs true f prob w q pair hastings start pscale hst l x _ ω hl (deltaStep_bound cs ho f x δ hx ω hf) hj

/-! ### Many samples -/

/-- The sets in transformed coordinates. -/
def edges (cs : Fin n → Spec.Axis) (i : Fin n) : Set ℝ := {s | Spec.MemF (cs i).set ((cs i).uf.inv s)}

theorem displacedIn_back {cs : Fin n → Spec.Axis} (hcs : Spec.Invertible cs) (s δ : Fin n → ℝ) :
    Spec.displacedIn cs (Spec.untransformed cs s) δ = Spec.untransformed cs (jointTo (edges cs) id s δ) := by
  classical
  funext i
  unfold Spec.displacedIn
  rw [displaced_back hcs]
  simp only [Spec.untransformed, jointTo, edges, Pi.add_apply, id, Set.mem_setOf_eq]
  by_cases h : Spec.MemF (cs i).set ((cs i).uf.inv (s i + δ i))
  · simp [h]
  · simp [h]

/-- C90 (intended), bounded steps: functions whose numbers are as likely as their opposites
keep every target on the sets of the variables, if these are open. -/
def C90_bounded_claim : Prop :=
  ∀ (n : ℕ) (Ω : Type) (_ : MeasurableSpace Ω) (P : Measure Ω) (_ : IsProbabilityMeasure P) (cs : Fin n → Spec.Axis)
    (f : Ω → Py (DeltaRet n)) (D : Ω → Fin n → ℝ) (prob w : (Fin n → ℝ) → ℝ) (start : Fin n → ℝ) (pscale : PSpec),
    (∀ i, (cs i).uf = none) → (∀ i, Spec.Open (cs i).set) → (∀ ω, f ω = .ok (.delta (D ω))) → Measurable D →
    P.map (fun ω => - D ω) = P.map D → Spec.Stored prob pscale w → Measurable w →
    Spec.KeepsWeightOn P (Spec.mover cs true f prob (fun _ _ => 1) false false start pscale) prob w id (Spec.axisBox cs)

/-- C90, bounded steps, proved part: the signs of the numbers may be changed one by one
without changing their law. -/
theorem C90_bounded_partial [MeasurableSpace Ω] {P : Measure Ω} [IsProbabilityMeasure P] {cs : Fin n → Spec.Axis}
    (hcs : Spec.Invertible cs) (ho : ∀ i, Spec.Open (cs i).set)
    {f : Ω → Py (DeltaRet n)} {D : Ω → Fin n → ℝ} (hf : ∀ ω, f ω = .ok (.delta (D ω))) (hD : Measurable D)
    (hsym : ∀ S, P.map (fun ω => Spec.negated S (D ω)) = P.map D)
    {prob w : (Fin n → ℝ) → ℝ} {q : (Fin n → ℝ) → (Fin n → ℝ) → ℝ} {pair hastings : Bool} {start : Fin n → ℝ}
    {pscale : PSpec} (hst : Spec.Stored prob pscale w) (hw : Measurable w)
    (hj : ∀ x ω, Spec.Judgeable hastings pair pscale w q x (Spec.displacedIn cs x (D ω))) :
    Spec.KeepsWeightOn P (Spec.mover cs true f prob q pair hastings start pscale) prob w (Spec.untransformed cs)
      (Spec.axisBox cs) := by
  classical
  intro l hl k A hA
  set g := Spec.untransformed cs with hg
  have hgm : Measurable g := measurable_pi_iff.mpr fun i => (hcs i).2.comp (measurable_pi_apply i)
  have hwg : Measurable fun s => w (g s) := hw.comp hgm
  have hAm : MeasurableSet (g ⁻¹' A) := hgm hA
  set B := edges cs with hBd
  have hB : ∀ i, MeasurableSet (B i) := fun i => (hcs i).2 (memF_measurable (cs i).set)
  have hreg : {s | g s ∈ Spec.axisBox cs} = Set.univ.pi B := by
    ext s
    simp [Spec.axisBox, hBd, edges, hg, Spec.untransformed]
  have hmv : Measurable fun p : (Fin n → ℝ) × Ω => jointTo B id p.1 (D p.2) :=
    (jointTo_measurable (e := id) hB measurable_id).comp (measurable_fst.prodMk (hD.comp measurable_snd))
  have : IsProbabilityMeasure (P.map D) := Measure.isProbabilityMeasure_map hD.aemeasurable
  have hflip : ∀ S, (P.map D).map (Spec.negated S) = P.map D := by
    intro S
    rw [Measure.map_map (negated_measurable S) hD]
    exact hsym S
  have hrev : ∀ G : (Fin n → ℝ) → (Fin n → ℝ) → ENNReal,
      (Measurable fun p : (Fin n → ℝ) × (Fin n → ℝ) => G p.1 p.2) →
      ∫⁻ s in Set.univ.pi B, ∫⁻ ω, G s (jointTo B id s (D ω)) ∂P =
        ∫⁻ s in Set.univ.pi B, ∫⁻ ω, G (jointTo B id s (D ω)) s ∂P := by
    intro G hG
    have hj := jointTo_measurable (e := id) hB measurable_id
    have h1 : ∀ s, ∫⁻ ω, G s (jointTo B id s (D ω)) ∂P = ∫⁻ δ, G s (jointTo B id s δ) ∂(P.map D) := fun s =>
      (lintegral_map (f := fun δ => G s (jointTo B id s δ))
        (hG.comp (measurable_const.prodMk (hj.comp (measurable_const.prodMk measurable_id)))) hD).symm
    have h2 : ∀ s, ∫⁻ ω, G (jointTo B id s (D ω)) s ∂P = ∫⁻ δ, G (jointTo B id s δ) s ∂(P.map D) := fun s =>
      (lintegral_map (f := fun δ => G (jointTo B id s δ) s)
        (hG.comp ((hj.comp (measurable_const.prodMk measurable_id)).prodMk measurable_const)) hD).symm
    simp only [h1, h2]
    exact flips_reversible hB hflip G hG
  have hFm : ∀ k, Measurable ((afterF P (fun s => w (g s)) fun s ω => jointTo B id s (D ω))^[k]
      ((g ⁻¹' A).indicator 1)) := by
    intro k
    induction k with
    | zero => exact measurable_one.indicator hAm
    | succ k ih =>
        rw [Function.iterate_succ_apply']
        exact afterF_measurable hwg hmv ih
  have hkeep : ∀ k, ∫⁻ s in Set.univ.pi B, ENNReal.ofReal (w (g s)) *
      ((afterF P (fun s => w (g s)) fun s ω => jointTo B id s (D ω))^[k] ((g ⁻¹' A).indicator 1)) s =
        ∫⁻ s in Set.univ.pi B, ENNReal.ofReal (w (g s)) * (g ⁻¹' A).indicator 1 s := by
    intro k
    induction k with
    | zero => rfl
    | succ k ih =>
        rw [← ih]
        simp only [Function.iterate_succ_apply']
        exact afterF_keeps_of hmv hrev hwg (fun s => hst.nonneg _) (hFm k)
  have harr := fun s => arrives_of (P := P) (start := start) (mv := fun s ω => jointTo B id s (D ω)) (bound := true)
    (fun s ω => by
      rw [deltaStep_bound cs ho f _ (D ω.d) (fun i => by simp only [Spec.untransformed, (hcs i).1]) ω (hf _),
        displacedIn_back hcs])
    hst (fun s ω => by rw [← displacedIn_back hcs]; exact hj _ _) A k (l (g s)) s (hl _)
  have hset : {s | g s ∈ Spec.axisBox cs ∩ A} = (g ⁻¹' A) ∩ Set.univ.pi B := by
    rw [← hreg]
    ext s
    simp [and_comm]
  simp only [harr]
  rw [hreg, hkeep k, hset, ← Measure.restrict_restrict hAm, ← lintegral_indicator hAm]
  congr 1
  funext s
  by_cases h : s ∈ g ⁻¹' A
  · simp [Set.indicator_of_mem h]
  · simp [Set.indicator_of_notMem h]

/-! ### Steps along the diagonal -/

/-- Two variables in (0, 1). -/
def squareAxes : Fin 2 → Spec.Axis := fun _ => ⟨.tuple (0 : ℝ) (1 : ℝ), none⟩

theorem squareAxes_mem (i : Fin 2) (z : ℝ) : Spec.MemF (squareAxes i).set z ↔ 0 < z ∧ z < 1 := by
  have h1 : min ((0 : ℝ) : EReal) (1 : ℝ) = (0 : ℝ) := min_eq_left (EReal.coe_le_coe_iff.mpr (by norm_num))
  have h2 : max ((0 : ℝ) : EReal) (1 : ℝ) = (1 : ℝ) := max_eq_right (EReal.coe_le_coe_iff.mpr (by norm_num))
  simp only [squareAxes, Spec.MemF, h1, h2, EReal.coe_lt_coe_iff]

/-- One half is added to both, or taken from both. -/
noncomputable def halfSteps (b : Bool) : Fin 2 → ℝ := fun _ => if b then 1/2 else -(1/2)

/-- A fair coin. -/
noncomputable def coin : Measure Bool := (2 : ENNReal)⁻¹ • (Measure.dirac true + Measure.dirac false)

instance coin_prob : IsProbabilityMeasure coin := ⟨by
  simp only [coin, Measure.smul_apply, Measure.add_apply, measure_univ, smul_eq_mul]
  rw [one_add_one_eq_two]
  exact ENNReal.inv_mul_cancel (by norm_num) (by norm_num)⟩

theorem coin_halves : coin.map (fun b => - halfSteps b) = coin.map halfSteps := by
  have hm : ∀ f : Bool → Fin 2 → ℝ, Measurable f := fun f => measurable_of_countable f
  have h1 : - halfSteps true = halfSteps false := by funext i; simp [halfSteps]
  have h2 : - halfSteps false = halfSteps true := by funext i; simp [halfSteps]
  simp only [coin, Measure.map_smul, Measure.map_add _ _ (hm _), Measure.map_dirac' (hm _), h1, h2]
  rw [add_comm]

/-- C90: bounded steps along the diagonal, up or down with equal chances, leave the two other
corners of a square empty. -/
theorem C90_bounded_claim_fails : ¬ C90_bounded_claim := by
  classical
  intro H
  have hk := H 2 Bool inferInstance coin inferInstance squareAxes (fun b => .ok (.delta (halfSteps b))) halfSteps
    (fun _ => 1) (fun _ => 1) (fun _ => 1/2) (.flt 1) (fun _ => rfl) (fun _ => trivial) (fun _ => rfl)
    (measurable_of_countable _) coin_halves one_stored measurable_const
    (fun x => ⟨none, some ⟨x, .scalar 1⟩, some ⟨x, .scalar 0⟩, none⟩) (fun x => ⟨rfl, _, rfl⟩) 1
    {x | x 0 < 1/2 ∧ 1/2 < x 1}
    ((measurableSet_lt (measurable_pi_apply 0) measurable_const).inter
      (measurableSet_lt measurable_const (measurable_pi_apply 1)))
  have hinv : Spec.Invertible squareAxes := fun i => ⟨fun _ => rfl, measurable_id⟩
  have hun : Spec.untransformed squareAxes = id := rfl
  have hL : ∀ s ∈ Spec.axisBox squareAxes, Spec.arrives coin (Spec.mover squareAxes true (fun b => .ok (.delta (halfSteps b)))
      (fun _ => 1) (fun _ _ => 1) false false (fun _ => 1/2) (.flt 1)) 1
      ⟨none, some ⟨id s, .scalar 1⟩, some ⟨id s, .scalar 0⟩, none⟩ {x | x 0 < 1/2 ∧ 1/2 < x 1} = 0 := by
    intro s hs
    rw [arrives_of (mv := fun s b => jointTo (edges squareAxes) id s (halfSteps b)) (w := fun _ => 1)
      (fun s ω => by
        rw [deltaStep_bound squareAxes (fun _ => trivial) _ _ (halfSteps ω.d) (fun i => rfl) ω rfl,
          displacedIn_back hinv])
      one_stored (fun s ω h => absurd h (by simp)) _ 1 _ s ⟨rfl, _, rfl⟩]
    simp only [Function.iterate_one, afterF]
    have hr : Spec.ratio 1 1 = 1 := by
      have hnpz : npz ≤ 1 := by unfold npz; norm_num
      simp [Spec.ratio, max_eq_right hnpz]
    have hz : ∀ b, (Spec.untransformed squareAxes ⁻¹' {x | x 0 < 1/2 ∧ 1/2 < x 1}).indicator (1 : (Fin 2 → ℝ) → ENNReal)
        (jointTo (edges squareAxes) id s (halfSteps b)) = 0 := by
      intro b
      rw [Set.indicator_of_notMem]
      have he : ∀ i z, z ∈ edges squareAxes i ↔ 0 < z ∧ z < 1 := fun i z => squareAxes_mem i z
      rw [hun]
      simp only [Set.preimage_id, Set.mem_setOf_eq, jointTo, he, id, halfSteps]
      obtain ⟨a0, a1⟩ := (squareAxes_mem 0 _).mp (hs 0)
      obtain ⟨b0, b1⟩ := (squareAxes_mem 1 _).mp (hs 1)
      rintro ⟨h0, h1⟩
      cases b with
      | true =>
        simp only [if_true] at h0
        split at h0
        · linarith
        · rename_i hn
          exact hn ⟨by linarith, by linarith⟩
      | false =>
        simp only [Bool.false_eq_true, if_false] at h1
        split at h1
        · linarith
        · rename_i hn
          exact hn ⟨by linarith, by linarith⟩
    simp only [hr, hz]
    simp
  have hbox : Spec.axisBox squareAxes = {s | ∀ i, 0 < s i ∧ s i < 1} := by
    ext s
    exact forall_congr' fun i => squareAxes_mem i (s i)
  have hboxm : MeasurableSet {s | id s ∈ Spec.axisBox squareAxes} := by
    rw [show {s | id s ∈ Spec.axisBox squareAxes} = ⋂ i, {s : Fin 2 → ℝ | 0 < s i ∧ s i < 1} by
      rw [hbox]; ext s; simp]
    exact MeasurableSet.iInter fun i => (measurableSet_lt measurable_const (measurable_pi_apply i)).inter
      (measurableSet_lt (measurable_pi_apply i) measurable_const)
  rw [setLIntegral_congr_fun (g := fun _ => 0) hboxm (fun s hs => by simp only [hL s hs, mul_zero])] at hk
  simp only [lintegral_zero, ENNReal.ofReal_one, lintegral_const, one_mul, MeasurableSet.univ,
    Measure.restrict_apply, Set.univ_inter] at hk
  have hopen : IsOpen {s : Fin 2 → ℝ | (∀ i, 0 < s i ∧ s i < 1) ∧ s 0 < 1/2 ∧ 1/2 < s 1} := by
    refine IsOpen.inter ?_ ?_
    · have : IsOpen (⋂ i, {s : Fin 2 → ℝ | 0 < s i ∧ s i < 1}) := isOpen_iInter_of_finite fun i =>
        (isOpen_lt continuous_const (continuous_apply i)).inter (isOpen_lt (continuous_apply i) continuous_const)
      rw [← Set.setOf_forall] at this
      exact this
    · exact (isOpen_lt (continuous_apply 0) continuous_const).inter (isOpen_lt continuous_const (continuous_apply 1))
  have hpos := hopen.measure_pos volume ⟨fun i => if i = 0 then 1/4 else 3/4, fun i => by
    fin_cases i <;> norm_num, by norm_num⟩
  refine hpos.ne ?_
  rw [hk, hbox]
  rfl

/-- Independent numbers that are each as likely as their opposites. -/
theorem normals_flips (n : ℕ) (S : Finset (Fin n)) : (normals n).map (Spec.negated S) = normals n := by
  classical
  have h : ∀ i : Fin n, MeasurePreserving (fun x : ℝ => if i ∈ S then -x else x) (ProbabilityTheory.gaussianReal 0 1)
      (ProbabilityTheory.gaussianReal 0 1) := by
    intro i
    by_cases hi : i ∈ S
    · simp only [hi, if_true]
      refine ⟨measurable_neg, ?_⟩
      rw [ProbabilityTheory.gaussianReal_map_neg, neg_zero]
    · simp only [hi, if_false]
      exact MeasurePreserving.id _
  have := measurePreserving_pi (fun _ : Fin n => ProbabilityTheory.gaussianReal 0 1)
    (fun _ : Fin n => ProbabilityTheory.gaussianReal 0 1) h
  exact this.map_eq

/-- C90: bounded steps of independent standard normal numbers keep every target on open sets,
whatever positive density is stated. -/
theorem C90_bounded_normal {n : ℕ} {cs : Fin n → Spec.Axis} (hcs : ∀ i, (cs i).uf = none)
    (ho : ∀ i, Spec.Open (cs i).set) {prob w : (Fin n → ℝ) → ℝ} (hst : Spec.Stored prob (.flt 1) w) (hw : Measurable w)
    {q : (Fin n → ℝ) → (Fin n → ℝ) → ℝ} (hq : ∀ x y, 0 < q x y) (hastings : Bool) (start : Fin n → ℝ) :
    Spec.KeepsWeightOn (normals n)
      (Spec.mover cs true (fun δ => .ok (.delta δ)) prob q false hastings start (.flt 1)) prob w id (Spec.axisBox cs) := by
  have hun : Spec.untransformed cs = id := by
    funext s i
    simp [Spec.untransformed, hcs i, UFun.inv]
  have := C90_bounded_partial (P := normals n) (D := id) (cs := cs) (f := fun δ => .ok (.delta δ)) (q := q)
    (pair := false) (hastings := hastings) (start := start)
    (fun i => by rw [hcs i]; exact ⟨fun _ => rfl, measurable_id⟩) ho (fun _ => rfl) measurable_id
    (fun S => by rw [Measure.map_id]; exact normals_flips n S) hst hw
    (fun x ω _ => ⟨fun _ => ⟨.lin 1, by simp [evalPscale], one_pos, trivial, by simpa [Spec.value] using hq _ _⟩,
      fun h => by simp at h⟩)
  rwa [hun] at this

example : Spec.KeepsWeightOn (normals 2) (Spec.mover squareAxes true (fun δ => .ok (.delta δ)) (fun _ => 1)
    (fun _ _ => 1) false true (fun _ => 1/2) (.flt 1)) (fun _ => 1) (fun _ => 1) id (Spec.axisBox squareAxes) :=
  C90_bounded_normal (cs := squareAxes) (fun _ => rfl) (fun _ => trivial) one_stored measurable_const (fun _ _ => one_pos) true _

end Probayes
