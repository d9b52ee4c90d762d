/-
C85: a Metropolis process that steps by spherised deltas, with or without a covariance,
keeps its target.
-/
import Verif.Lemmas.WalkJoint
import Verif.Props.RFCov

namespace Probayes

open MeasureTheory Matrix

/-! ### What is claimed -/

/-- A float variable: its set, its transform, the settings of its own deltas, and its
length. -/
structure Spec.Coord where
  set : FSet
  uf : UFun
  opts : DeltaOpts
  len : ℝ

/-- The variable that results. -/
noncomputable def Spec.Coord.coord (c : Spec.Coord) : FCoord := ⟨.make c.set, c.uf, c.opts, c.len⟩

/-- The process of a field with the transitions `F` and spherised deltas of radius `d`. -/
noncomputable def Spec.spheres {n : ℕ} (F : RFTrans) (names : Fin n → Str) (cs : Fin n → Spec.Coord) (d : ℝ)
    (scale bound : Bool) (prob : (Fin n → ℝ) → ℝ) (tran : ℝ) (start : Fin n → ℝ) (pscale : PSpec) :
    Proc Unit (Row (Fin n → ℝ)) (FDraw n) :=
  walkProc (F.step names (fun i => (cs i).coord) (.sphere d scale) bound) prob tran start pscale FDraw.t

/-- The values of transformed coordinates `s`. -/
def Spec.values {n : ℕ} (cs : Fin n → Spec.Coord) (s : Fin n → ℝ) : Fin n → ℝ := fun i => (cs i).uf.inv (s i)

/-- The region to which steps are bounded: the declared sets, or everything. -/
def Spec.domain {n : ℕ} (cs : Fin n → Spec.Coord) (bound : Bool) : _root_.Set (Fin n → ℝ) :=
  {x | bound = true → ∀ i, Spec.MemF (cs i).set (x i)}

/-- What is asked of the variables: transforms are inverted by their second functions, which
are measurable; lengths by which steps are scaled are not zero; limits to which they are
bounded are excluded. -/
structure Spec.Walkable (c : Spec.Coord) (scale bound : Bool) : Prop where
  undone : ∀ s, c.uf.fwd (c.uf.inv s) = s
  meas : Measurable c.uf.inv
  len : scale = true → c.len ≠ 0
  limits : bound = true → Spec.Open c.set

/-! ### Chains of steps that may be refused -/

theorem next_refused {V Ω : Type} (step : V → Ω → Py V) (prob : V → ℝ) (tran : ℝ) (start : V) (pscale : PSpec)
    (thresh : Ω → ℝ) (l : OPQR (Row V)) (x : V) (ω : Ω) (hl : Spec.At prob l x) (e : Err) (hy : step x ω = .error e) :
    nextCore (walkProc step prob tran start pscale thresh) (some l) ω () = ((), some l, .error e) := by
  obtain ⟨hp, q, hq⟩ := hl
  simp [nextCore, walkProc, sampleTran, walkOps, hq, hy, bind, Except.bind]

theorem within_of {n : ℕ} {step : (Fin n → ℝ) → FDraw n → Py (Fin n → ℝ)}
    {mv : (Fin n → ℝ) → (Fin n → ℝ) → Fin n → ℝ}
    (hmv : ∀ v u t, step v ⟨u, t⟩ = .ok (mv v u) ∨ Raises (step v ⟨u, t⟩) ∧ mv v u = v)
    {prob : (Fin n → ℝ) → ℝ} {pscale : PSpec} {w : (Fin n → ℝ) → ℝ} (hst : Spec.Stored prob pscale w)
    (tran : ℝ) (start : Fin n → ℝ) (A : Set (Fin n → ℝ)) (k : ℕ) :
    ∀ (l : OPQR (Row (Fin n → ℝ))) (x : Fin n → ℝ), Spec.At prob l x →
      Spec.within (walkProc step prob tran start pscale FDraw.t) k l A =
        ((afterF (cubeLaw n) w mv)^[k] (A.indicator 1)) x := by
  classical
  obtain ⟨a, hs, ha, hu, hw⟩ := hst.scale
  have hnn := stored_nonneg hst
  induction k with
  | zero =>
      intro l x hl
      simp only [Spec.within, Function.iterate_zero, id, hl.1, Option.map_some, Option.some.injEq]
      by_cases h : x ∈ A
      · rw [if_pos ⟨x, h, rfl⟩, Set.indicator_of_mem h]; rfl
      · rw [if_neg (by rintro ⟨y, hy, rfl⟩; exact h hy), Set.indicator_of_notMem h]
  | succ k ih =>
      intro l x hl
      rw [Function.iterate_succ_apply']
      set F := (afterF (cubeLaw n) w mv)^[k] (A.indicator 1)
      simp only [Spec.within, Spec.means, afterF]
      congr 1
      funext u
      have hstep : ∀ t, Spec.within (walkProc step prob tran start pscale FDraw.t) k
          ((nextCore (walkProc step prob tran start pscale FDraw.t) (some l) ⟨u, t⟩ ()).2.1.getD l) A =
          if t ≤ Spec.ratio (w x) (w (mv x u)) then F (mv x u) else F x := by
        intro t
        rcases hmv x u t with hok | ⟨⟨e, he⟩, hstay⟩
        · obtain ⟨l', smp, h1, h2, h3⟩ := C82_step step prob tran start pscale
            a hs ha hu FDraw.t l x (mv x u) ⟨u, t⟩ hl hok
          rw [hw, hw] at h2 h3
          rw [h1]
          simp only [Option.getD_some]
          by_cases ht : t ≤ Spec.ratio (w x) (w (mv x u))
          · rw [if_pos ht]
            exact ih l' _ (h2 ht).1
          · rw [if_neg ht, (h3 ht).1]
            exact ih l x hl
        · rw [next_refused step prob tran start pscale FDraw.t l x _ hl e he, hstay, ite_self]
          exact ih l x hl
      simp only [hstep]
      obtain ⟨r0, r1⟩ := ratio_bounds (w x) (w (mv x u)) (hnn _)
      exact mean_le _ _ _ r0 r1

/-! ### Spherised steps -/

theorem hyper_null {n : ℕ} (c : Fin n → ℝ) (hc : ∃ k, c k ≠ 0) :
    ∀ᵐ u ∂cubeLaw n, ∑ k, c k * (2 * u k - 1) ≠ 0 := by
  refine ae_restrict_of_ae ?_
  rw [ae_iff]
  simp only [not_not]
  let f : (Fin n → ℝ) →ₗ[ℝ] ℝ := ∑ k, c k • LinearMap.proj k
  have hf : ∀ v, f v = ∑ k, c k * v k := by intro v; simp [f]
  have hker : LinearMap.ker f ≠ ⊤ := by
    intro h
    obtain ⟨k, hk⟩ := hc
    have : f (Pi.single k 1) = 0 := by
      have : (Pi.single k 1 : Fin n → ℝ) ∈ LinearMap.ker f := by rw [h]; trivial
      exact this
    rw [hf] at this
    simp [Pi.single_apply] at this
    exact hk this
  have hset : {u : Fin n → ℝ | ∑ k, c k * (2 * u k - 1) = 0} =
      (fun u => u + fun _ => -(1/2)) ⁻¹' (LinearMap.ker f : Set (Fin n → ℝ)) := by
    ext u
    simp only [Set.mem_setOf_eq, Set.mem_preimage, SetLike.mem_coe, LinearMap.mem_ker, hf, Pi.add_apply]
    have : ∑ k, c k * (2 * u k - 1) = 2 * ∑ k, c k * (u k + -(1/2)) := by
      rw [Finset.mul_sum]
      exact Finset.sum_congr rfl fun k _ => by ring
    rw [this]
    simp
  rw [hset, measure_preimage_add_right]
  exact Measure.addHaar_submodule volume _ hker

/-- What is added, nothing if it is not finite. -/
noncomputable def sphMove {n : ℕ} (cs : Fin n → FCoord) (d : ℝ) (scale : Bool) (L : Matrix (Fin n) (Fin n) ℝ)
    (u : Fin n → ℝ) : Fin n → ℝ :=
  open Classical in if npz ≤ drawSq (radius cs d scale) u then L *ᵥ sphComp cs d scale u else 0

/-- Where a step leads. -/
noncomputable def sphTo {n : ℕ} (cs : Fin n → FCoord) (d : ℝ) (scale bound : Bool) (L : Matrix (Fin n) (Fin n) ℝ)
    (v u : Fin n → ℝ) : Fin n → ℝ :=
  open Classical in
  if npz ≤ drawSq (radius cs d scale) u then applyNums cs bound v (L *ᵥ sphComp cs d scale u) u else v

theorem sphMove_measurable {n : ℕ} (cs : Fin n → FCoord) (d : ℝ) (scale : Bool) (L : Matrix (Fin n) (Fin n) ℝ) :
    Measurable (sphMove cs d scale L) := by
  classical
  have h : MeasurableSet {u : Fin n → ℝ | npz ≤ drawSq (radius cs d scale) u} :=
    measurableSet_le measurable_const (drawSq_measurable _)
  refine Measurable.ite h (measurable_pi_iff.mpr fun i => ?_) measurable_const
  simp only [mulVec, dotProduct]
  exact Finset.measurable_sum _ fun k _ => measurable_const.mul (sphComp_measurable cs d scale k)

theorem sphMove_nonzero {n : ℕ} (cs : Fin n → FCoord) (d : ℝ) (scale : Bool) (L : Matrix (Fin n) (Fin n) ℝ)
    (hL : ∀ i, L i i ≠ 0) (hlen : scale = true → ∀ i, (cs i).len ≠ 0) :
    ∀ᵐ u ∂cubeLaw n, npz ≤ drawSq (radius cs d scale) u → ∀ i, (L *ᵥ sphComp cs d scale u) i ≠ 0 := by
  have h : ∀ᵐ u ∂cubeLaw n, ∀ i, ∑ k, L i k * (if scale then (cs k).len else 1) * (2 * u k - 1) ≠ 0 := by
    rw [ae_all_iff]
    intro i
    refine hyper_null _ ⟨i, mul_ne_zero (hL i) ?_⟩
    split
    · exact hlen (by assumption) i
    · exact one_ne_zero
  filter_upwards [h] with u hu hfin i
  have hpos : 0 < drawSq (radius cs d scale) u := lt_of_lt_of_le npz_pos hfin
  have hrad : radius cs d scale ≠ 0 := by
    intro h0
    rw [h0] at hpos
    simp [drawSq] at hpos
  have hs0 : Real.sqrt (drawSq (radius cs d scale) u) ≠ 0 := (Real.sqrt_pos.mpr hpos).ne'
  have : (L *ᵥ sphComp cs d scale u) i = radius cs d scale * radius cs d scale /
      Real.sqrt (drawSq (radius cs d scale) u) *
        ∑ k, L i k * (if scale then (cs k).len else 1) * (2 * u k - 1) := by
    simp only [mulVec, dotProduct, sphComp]
    rw [Finset.mul_sum]
    exact Finset.sum_congr rfl fun k _ => by ring
  rw [this]
  exact mul_ne_zero (div_ne_zero (mul_ne_zero hrad hrad) hs0) (hu i)

theorem applyNums_plain {n : ℕ} (cs : Fin n → Spec.Coord) (scale bound : Bool)
    (hcs : ∀ i, Spec.Walkable (cs i) scale bound) (s δ u : Fin n → ℝ) (i : Fin n) (hδ : δ i ≠ 0) :
    applyNums (fun i => (cs i).coord) bound (Spec.values cs s) δ u i = open Classical in
      if bound = true → Spec.MemF (cs i).set ((cs i).uf.inv (s i + δ i)) then (cs i).uf.inv (s i + δ i)
      else (cs i).uf.inv (s i) := by
  have hsh : shift (cs i).uf ((cs i).uf.inv (s i)) (δ i) = (cs i).uf.inv (s i + δ i) := by
    have := (hcs i).undone (s i)
    unfold shift
    rcases huf : (cs i).uf with _ | ⟨f, g⟩
    · simp [UFun.inv]
    · rw [huf] at this
      simp only [UFun.inv, UFun.fwd] at this ⊢
      rw [this]
  simp only [applyNums, Spec.Coord.coord, FloatVar.applyScalar, effectiveDelta, orDefault, DeltaSpec.truthy,
    Spec.values, hδ, ne_eq, not_false_eq_true, decide_true, if_true, Option.getD_some, hsh]
  cases hb : bound with
  | false => simp
  | true =>
      rw [if_pos rfl, boundScalar_open _ ((hcs i).limits hb)]
      by_cases hm : Spec.MemF (cs i).set ((cs i).uf.inv (s i + δ i))
      · rw [if_pos hm, if_pos fun _ => hm]
      · rw [if_neg hm, if_neg fun h => hm (h rfl)]

/-- The region in transformed coordinates, coordinate by coordinate. -/
def sides {n : ℕ} (cs : Fin n → Spec.Coord) (bound : Bool) (i : Fin n) : Set ℝ :=
  {s | bound = true → Spec.MemF (cs i).set ((cs i).uf.inv s)}

theorem sphTo_joint {n : ℕ} (cs : Fin n → Spec.Coord) (d : ℝ) (scale bound : Bool) (L : Matrix (Fin n) (Fin n) ℝ)
    (hcs : ∀ i, Spec.Walkable (cs i) scale bound) (hL : ∀ i, L i i ≠ 0) :
    ∀ᵐ u ∂cubeLaw n, ∀ s, sphTo (fun i => (cs i).coord) d scale bound L (Spec.values cs s) u =
      Spec.values cs (jointTo (sides cs bound) (sphMove (fun i => (cs i).coord) d scale L) s u) := by
  classical
  filter_upwards [sphMove_nonzero (fun i => (cs i).coord) d scale L hL fun hs i => (hcs i).len hs] with u hu s
  funext i
  by_cases hfin : npz ≤ drawSq (radius (fun i => (cs i).coord) d scale) u
  · have hmv : sphMove (fun i => (cs i).coord) d scale L u = L *ᵥ sphComp (fun i => (cs i).coord) d scale u := if_pos hfin
    have hto : sphTo (fun i => (cs i).coord) d scale bound L (Spec.values cs s) u =
        applyNums (fun i => (cs i).coord) bound (Spec.values cs s) (L *ᵥ sphComp (fun i => (cs i).coord) d scale u) u :=
      if_pos hfin
    rw [hto, applyNums_plain cs scale bound hcs s _ u i (hu hfin i)]
    unfold Spec.values jointTo
    rw [hmv]
    by_cases hm : s i + (L *ᵥ sphComp (fun i => (cs i).coord) d scale u) i ∈ sides cs bound i
    · rw [if_pos hm]
      exact if_pos hm
    · rw [if_neg hm]
      exact if_neg hm
  · have hmv : sphMove (fun i => (cs i).coord) d scale L u = 0 := if_neg hfin
    have hto : sphTo (fun i => (cs i).coord) d scale bound L (Spec.values cs s) u = Spec.values cs s := if_neg hfin
    rw [hto]
    unfold Spec.values jointTo
    rw [hmv]
    simp

theorem sph_iter {n : ℕ} (cs : Fin n → Spec.Coord) (d : ℝ) (scale bound : Bool) (L : Matrix (Fin n) (Fin n) ℝ)
    (hcs : ∀ i, Spec.Walkable (cs i) scale bound) (hL : ∀ i, L i i ≠ 0) (w : (Fin n → ℝ) → ℝ)
    (A : Set (Fin n → ℝ)) : ∀ k s, ((afterF (cubeLaw n) w (sphTo (fun i => (cs i).coord) d scale bound L))^[k]
      (A.indicator 1)) (Spec.values cs s) =
      ((afterF (cubeLaw n) (fun s => w (Spec.values cs s))
        (jointTo (sides cs bound) (sphMove (fun i => (cs i).coord) d scale L)))^[k]
          ((Spec.values cs ⁻¹' A).indicator 1)) s := by
  have hmv := sphTo_joint cs d scale bound L hcs hL
  intro k
  induction k with
  | zero => intro s; rfl
  | succ k ih =>
      intro s
      rw [Function.iterate_succ_apply', Function.iterate_succ_apply']
      unfold afterF at ih ⊢
      refine lintegral_congr_ae ?_
      filter_upwards [hmv] with u hu
      rw [hu s, ih, ih]

theorem sphMove_sym {n : ℕ} (cs : Fin n → Spec.Coord) (d : ℝ) (scale bound : Bool) (L : Matrix (Fin n) (Fin n) ℝ)
    (hd : bound = true → ∀ i j, i ≠ j → L i j = 0) (A : Finset (Fin n))
    (hA : ∀ i, i ∉ A → sides cs bound i ≠ Set.univ) (u : Fin n → ℝ) (i : Fin n) :
    sphMove (fun i => (cs i).coord) d scale L (flipOn A u) i =
      if i ∈ A then - sphMove (fun i => (cs i).coord) d scale L u i
      else sphMove (fun i => (cs i).coord) d scale L u i := by
  classical
  unfold sphMove
  rw [drawSq_flip]
  by_cases hfin : npz ≤ drawSq (radius (fun i => (cs i).coord) d scale) u
  · simp only [if_pos hfin]
    cases hb : bound with
    | true =>
        have hone : ∀ a : Fin n → ℝ, (L *ᵥ a) i = L i i * a i := by
          intro a
          simp only [mulVec, dotProduct]
          exact Finset.sum_eq_single i (fun k _ hk => by rw [hd hb i k (Ne.symm hk), zero_mul]) (by simp)
        rw [hone, hone, sphComp_flip]
        split <;> ring
    | false =>
        have hall : ∀ i, i ∈ A := by
          intro i
          by_contra hi
          exact hA i hi (by simp [sides, hb])
        rw [if_pos (hall i)]
        simp only [mulVec, dotProduct, sphComp_flip, hall, if_true, mul_neg, Finset.sum_neg_distrib]
  · simp [hfin]

theorem sphere_keeps {n : ℕ} (cs : Fin n → Spec.Coord) (d : ℝ) (scale bound : Bool)
    (L : Matrix (Fin n) (Fin n) ℝ) (hL : ∀ i, L i i ≠ 0) (hd : bound = true → ∀ i j, i ≠ j → L i j = 0)
    (hcs : ∀ i, Spec.Walkable (cs i) scale bound)
    {step : (Fin n → ℝ) → FDraw n → Py (Fin n → ℝ)}
    (hstep : ∀ v u t, step v ⟨u, t⟩ = .ok (sphTo (fun i => (cs i).coord) d scale bound L v u) ∨
      Raises (step v ⟨u, t⟩) ∧ sphTo (fun i => (cs i).coord) d scale bound L v u = v)
    (prob : (Fin n → ℝ) → ℝ) (pscale : PSpec) (w : (Fin n → ℝ) → ℝ) (tran : ℝ) (start : Fin n → ℝ)
    (hst : Spec.Stored prob pscale w) (hw : Measurable w) :
    Spec.KeepsDensity (walkProc step prob tran start pscale FDraw.t) prob w (Spec.values cs)
      (Spec.domain cs bound) := by
  classical
  intro l hl k A hA
  set g := Spec.values cs with hg
  have hgm : Measurable g := measurable_pi_iff.mpr fun i => (hcs i).meas.comp (measurable_pi_apply i)
  set B := sides cs bound with hBdef
  have hB : ∀ i, MeasurableSet (B i) := by
    intro i
    by_cases hb : bound = true
    · simp only [hBdef, sides, hb, true_imp_iff]
      exact (hcs i).meas (memF_measurable (cs i).set)
    · simp [hBdef, sides, hb]
  have hreg : {s | g s ∈ Spec.domain cs bound} = Set.univ.pi B := by
    ext s
    simp only [Spec.domain, Set.mem_setOf_eq, Set.mem_pi, Set.mem_univ, true_imp_iff, hBdef, sides, hg, Spec.values]
    exact ⟨fun h i hb => h hb i, fun h hb i => h i hb⟩
  set e := sphMove (fun i => (cs i).coord) d scale L with he
  have hem : Measurable e := sphMove_measurable _ d scale L
  have hiter : ∀ k s, ((afterF (cubeLaw n) w (sphTo (fun i => (cs i).coord) d scale bound L))^[k]
      (A.indicator 1)) (g s) =
      ((afterF (cubeLaw n) (fun s => w (g s)) (jointTo B e))^[k] ((g ⁻¹' A).indicator 1)) s :=
    sph_iter cs d scale bound L hcs hL w A
  have hwg : Measurable fun s => w (g s) := hw.comp hgm
  have hAm : MeasurableSet (g ⁻¹' A) := hgm hA
  have hFm : ∀ k, Measurable ((afterF (cubeLaw n) (fun s => w (g s)) (jointTo B e))^[k]
        ((g ⁻¹' A).indicator 1)) := by
    intro k
    induction k with
    | zero => exact measurable_one.indicator hAm
    | succ k ih =>
        rw [Function.iterate_succ_apply']
        exact afterF_measurable hwg (jointTo_measurable hB hem) ih
  have hkeep : ∀ k, ∫⁻ s in Set.univ.pi B, ENNReal.ofReal (w (g s)) *
      ((afterF (cubeLaw n) (fun s => w (g s)) (jointTo B e))^[k]
        ((g ⁻¹' A).indicator 1)) s = ∫⁻ s in Set.univ.pi B, ENNReal.ofReal (w (g s)) * (g ⁻¹' A).indicator 1 s := by
    intro k
    induction k with
    | zero => rfl
    | succ k ih =>
        rw [← ih]
        simp only [Function.iterate_succ_apply']
        exact afterF_keeps_of (jointTo_measurable hB hem)
          (jointTo_reversible hB hem (sphMove_sym cs d scale bound L hd)) hwg (fun s => hst.nonneg _) (hFm k)
  have hset : {s | g s ∈ Spec.domain cs bound ∩ A} = (g ⁻¹' A) ∩ Set.univ.pi B := by
    rw [← hreg]
    ext s
    simp [and_comm]
  simp only [within_of hstep hst tran start A k (l _) _ (hl _), hiter]
  rw [hreg, hkeep k, hset, ← Measure.restrict_restrict hAm, ← lintegral_indicator hAm]
  congr 1
  funext s
  by_cases h : s ∈ g ⁻¹' A
  · simp [Set.indicator_of_mem h]
  · simp [Set.indicator_of_notMem h]

theorem sphStep_of {n : ℕ} (hn : 0 < n) (F : RFTrans) (L : Matrix (Fin n) (Fin n) ℝ)
    (hF : ∀ δ : Fin n → ℝ, F.evalMoves (.nums δ) = .ok (.nums (L *ᵥ δ))) (names : Fin n → Str) (cs : Fin n → FCoord)
    (d : ℝ) (scale bound : Bool) (v u : Fin n → ℝ) (t : ℝ) :
    F.step names cs (.sphere d scale) bound v ⟨u, t⟩ = .ok (sphTo cs d scale bound L v u) ∨
      Raises (F.step names cs (.sphere d scale) bound v ⟨u, t⟩) ∧ sphTo cs d scale bound L v u = v := by
  classical
  unfold RFTrans.step sphTo
  simp only
  rw [fieldMoves_sphere hn]
  by_cases hfin : npz ≤ drawSq (radius cs d scale) u
  · left
    simp only [if_pos hfin, bind, Except.bind, hF, pure, Except.pure]
  · right
    simp only [if_neg hfin, bind, Except.bind]
    exact ⟨⟨_, rfl⟩, trivial⟩

/-- C85: spherised steps, unbounded or within open limits, keep every target, in the
coordinates in which the steps are made. -/
theorem C85_keeps {n : ℕ} (hn : 0 < n) (names : Fin n → Str) (cs : Fin n → Spec.Coord) (d : ℝ) (scale bound : Bool)
    (hcs : ∀ i, Spec.Walkable (cs i) scale bound) (prob : (Fin n → ℝ) → ℝ) (pscale : PSpec)
    (w : (Fin n → ℝ) → ℝ) (tran : ℝ) (start : Fin n → ℝ) (hst : Spec.Stored prob pscale w) (hw : Measurable w) :
    Spec.KeepsDensity (Spec.spheres RFTrans.fresh names cs d scale bound prob tran start pscale) prob w
      (Spec.values cs) (Spec.domain cs bound) :=
  sphere_keeps cs d scale bound 1 (by simp) (fun _ i j h => Matrix.one_apply_ne h) hcs
    (sphStep_of hn RFTrans.fresh 1 (by simp [RFTrans.evalMoves, RFTrans.fresh]) names _ d scale bound)
    prob pscale w tran start hst hw

/-- C85 full claim: so do spherised steps shaped by a covariance. -/
def C85_covariance_claim : Prop :=
  ∀ chol, Spec.Cholesky chol → ∀ n : ℕ, 0 < n → ∀ C : Matrix (Fin n) (Fin n) ℝ, C.PosDef →
    ∀ (names : Fin n → Str) (cs : Fin n → Spec.Coord) (d : ℝ) (scale bound : Bool),
    (∀ i, Spec.Walkable (cs i) scale bound) → ∀ (prob : (Fin n → ℝ) → ℝ) (pscale : PSpec)
    (w : (Fin n → ℝ) → ℝ) (tran : ℝ) (start : Fin n → ℝ), Spec.Stored prob pscale w → Measurable w →
    Spec.KeepsDensity (Spec.spheres (RFTrans.fresh.setTran chol n (some ⟨n, n, C⟩) none).1 names cs d scale bound
      prob tran start pscale) prob w (Spec.values cs) (Spec.domain cs bound)

theorem factor_diagonal {n : ℕ} {C L : Matrix (Fin n) (Fin n) ℝ} (hL : L * Lᵀ = C) (htri : ∀ i j, i < j → L i j = 0)
    (hdiag : ∀ i, L i i ≠ 0) (hC : ∀ i j, i ≠ j → C i j = 0) : ∀ i j, i ≠ j → L i j = 0 := by
  have key : ∀ (m : ℕ) (j : Fin n), j.val = m → ∀ i, j < i → L i j = 0 := by
    intro m
    induction m using Nat.strong_induction_on with
    | _ m ih =>
        intro j hj i hij
        have h1 : (L * Lᵀ) i j = 0 := by rw [hL]; exact hC i j hij.ne'
        rw [Matrix.mul_apply, Finset.sum_eq_single j] at h1
        · rw [transpose_apply] at h1
          exact (mul_eq_zero.mp h1).resolve_right (hdiag j)
        · intro k _ hk
          rw [transpose_apply]
          rcases lt_or_gt_of_ne hk with h | h
          · rw [ih k.val (by omega) k rfl i (h.trans hij), zero_mul]
          · rw [htri j k h, mul_zero]
        · simp
  intro i j hij
  rcases lt_or_gt_of_ne hij with h | h
  · exact htri i j h
  · exact key j.val j rfl i h

/-- C85 for what holds: if the steps are not bounded, or the covariance is diagonal. -/
theorem C85_covariance_partial {chol : Chol} (hc : Spec.Cholesky chol) {n : ℕ} (hn : 0 < n)
    (C : Matrix (Fin n) (Fin n) ℝ) (hC : C.PosDef) (names : Fin n → Str) (cs : Fin n → Spec.Coord) (d : ℝ)
    (scale bound : Bool) (hb : bound = true → ∀ i j, i ≠ j → C i j = 0)
    (hcs : ∀ i, Spec.Walkable (cs i) scale bound) (prob : (Fin n → ℝ) → ℝ) (pscale : PSpec)
    (w : (Fin n → ℝ) → ℝ) (tran : ℝ) (start : Fin n → ℝ) (hst : Spec.Stored prob pscale w) (hw : Measurable w) :
    Spec.KeepsDensity (Spec.spheres (RFTrans.fresh.setTran chol n (some ⟨n, n, C⟩) none).1 names cs d scale bound
      prob tran start pscale) prob w (Spec.values cs) (Spec.domain cs bound) := by
  obtain ⟨L, hL, htri, _, h⟩ := C84_steps hc RFTrans.fresh rfl C hC
  have hdiag : ∀ i, L i i ≠ 0 := by
    intro i
    have hdet : IsUnit C.det := (Matrix.isUnit_iff_isUnit_det C).mp hC.isUnit
    rw [← hL, det_mul] at hdet
    have hdL := (isUnit_of_mul_isUnit_left hdet).ne_zero
    rw [det_of_isLowerTriangular L fun i j h => htri i j h] at hdL
    exact Finset.prod_ne_zero_iff.mp hdL i (Finset.mem_univ i)
  exact sphere_keeps cs d scale bound L hdiag (fun hb' => factor_diagonal hL htri hdiag (hb hb')) hcs
    (sphStep_of hn _ L (fun δ => (h δ).2) names _ d scale bound) prob pscale w tran start hst hw

/-! ### One step -/

/-- What a variable at `v` proposes when `δ` is added: proposals outside the declared set
are given up if steps are bounded. -/
noncomputable def Spec.offered (c : Spec.Coord) (bound : Bool) (v δ : ℝ) : ℝ :=
  open Classical in
  let z := c.uf.inv (c.uf.fwd v + δ)
  if bound = true ∧ ¬ Spec.MemF c.set z then v else z

/-- C85: in each step the field's delta is evaluated, once for all variables, and each
proposes by its component; the chain moves there if the threshold is at most the ratio
of the probabilities and stays otherwise.  Where the delta is refused, so is the step, and
the chain stays. -/
theorem C85_step {n : ℕ} (F : RFTrans) (names : Fin n → Str) (cs : Fin n → Spec.Coord) (d : ℝ) (scale bound : Bool)
    (hopen : bound = true → ∀ i, Spec.Open (cs i).set) (prob : (Fin n → ℝ) → ℝ) (pscale : PSpec)
    (w : (Fin n → ℝ) → ℝ) (tran : ℝ) (start : Fin n → ℝ) (hst : Spec.Stored prob pscale w)
    (l : OPQR (Row (Fin n → ℝ))) (x u : Fin n → ℝ) (t : ℝ) (hl : Spec.At prob l x) :
    (∀ δ y : Fin n → ℝ, Spec.evaluated F names (fun i => (cs i).coord) (.sphere d scale) u = .ok (.nums δ) →
      (∀ i, δ i ≠ 0) → (∀ i, y i = Spec.offered (cs i) bound (x i) (δ i)) →
      ∃ l' smp, nextCore (Spec.spheres F names cs d scale bound prob tran start pscale) (some l) ⟨u, t⟩ () =
          ((), some l', .ok (.sample smp)) ∧
        (t ≤ Spec.ratio (w x) (w y) → Spec.At prob l' y ∧ smp.v = some ⟨y, .scalar (prob y)⟩) ∧
        (¬ t ≤ Spec.ratio (w x) (w y) → l' = l ∧ smp.v = some ⟨x, .scalar (prob x)⟩)) ∧
    ∀ e, Spec.evaluated F names (fun i => (cs i).coord) (.sphere d scale) u = .error e →
      nextCore (Spec.spheres F names cs d scale bound prob tran start pscale) (some l) ⟨u, t⟩ () =
        ((), some l, .error e) := by
  classical
  have hstep : F.step names (fun i => (cs i).coord) (.sphere d scale) bound x ⟨u, t⟩ =
      (Spec.evaluated F names (fun i => (cs i).coord) (.sphere d scale) u).bind fun
        | .deltas _ => fieldStep (fun i => (cs i).coord) bound x ⟨u, t⟩
        | .nums δ => return applyNums (fun i => (cs i).coord) bound x δ u
        | .arrays δ => if ∀ i, δ i = 0 then return applyNums (fun i => (cs i).coord) bound x δ u
            else .error .assertion := by
    unfold RFTrans.step Spec.evaluated
    simp only [bind]
    cases fieldMoves names (fun i => (cs i).coord) (.sphere d scale) u <;> rfl
  constructor
  · intro δ y hδ hne hy
    obtain ⟨a, hs, ha, hu, hw⟩ := hst.scale
    have hok : F.step names (fun i => (cs i).coord) (.sphere d scale) bound x ⟨u, t⟩ = .ok y := by
      rw [hstep, hδ]
      simp only [Except.bind, pure, Except.pure]
      congr 1
      funext i
      rw [hy i]
      have hsh : shift (cs i).uf (x i) (δ i) = (cs i).uf.inv ((cs i).uf.fwd (x i) + δ i) := by
        unfold shift
        rcases (cs i).uf with _ | ⟨f, g⟩ <;> simp [UFun.inv, UFun.fwd]
      have hne' := hne i
      simp only [applyNums, Spec.Coord.coord, FloatVar.applyScalar, effectiveDelta, orDefault, DeltaSpec.truthy,
        hne', ne_eq, not_false_eq_true, decide_true, if_true, Option.getD_some, hsh, Spec.offered]
      cases hb : bound with
      | false => simp
      | true =>
          rw [if_pos rfl, boundScalar_open _ (hopen hb i)]
          by_cases hm : Spec.MemF (cs i).set ((cs i).uf.inv ((cs i).uf.fwd (x i) + δ i))
          · rw [if_pos hm, if_neg (by simp [hm])]
          · rw [if_neg hm, if_pos ⟨rfl, hm⟩]
    have := C82_step (F.step names (fun i => (cs i).coord) (.sphere d scale) bound) prob tran start pscale a hs ha hu
      FDraw.t l x y ⟨u, t⟩ hl hok
    unfold Spec.spheres
    simpa only [hw] using this
  · intro e he
    exact next_refused _ prob tran start pscale FDraw.t l x _ hl e (by rw [hstep, he]; rfl)

/-! ### Bounded steps shaped by a covariance -/

/-- The values in `(0, 1)` from which a move by `e` that bounces leads above a half. -/
theorem bounce_above (e : ℝ) (h1 : -(1/2) < e) (h2 : e < 1/2) :
    {s : ℝ | s ∈ Set.Ioo (0:ℝ) 1 ∧ (open Classical in 1/2 < if s + e ∈ Set.Ioo (0:ℝ) 1 then s + e else s)} =
      Set.Ioo (1/2 - e) 1 := by
  classical
  ext s
  simp only [Set.mem_setOf_eq, Set.mem_Ioo]
  by_cases hm : 0 < s + e ∧ s + e < 1
  · rw [if_pos hm]
    constructor
    · rintro ⟨⟨a, b⟩, c⟩; exact ⟨by linarith, b⟩
    · rintro ⟨a, b⟩; exact ⟨⟨by linarith, b⟩, by linarith⟩
  · rw [if_neg hm]
    by_cases h0 : 0 < s + e
    · have h3 : 1 ≤ s + e := by by_contra h; exact hm ⟨h0, not_le.mp h⟩
      constructor
      · rintro ⟨⟨a, b⟩, c⟩; exact ⟨by linarith, b⟩
      · rintro ⟨a, b⟩; exact ⟨⟨by linarith, b⟩, by linarith⟩
    · constructor
      · rintro ⟨⟨a, b⟩, c⟩; exact absurd (by linarith) h0
      · rintro ⟨a, b⟩; exact absurd (by linarith) h0

/-- Two variables on the open unit interval, with the settings of their own deltas. -/
noncomputable def Spec.unitCoord (o : DeltaOpts) : Spec.Coord := ⟨.tuple 0 1, .none, o, 1⟩

/-- C85: two variables on the open unit interval, uniformly distributed, step by spherised
deltas of radius `d` shaped by the covariance `C`, within bounds.  If no step is as long as
half the interval, the upper quarter has, after one step, a probability of `1/4` and `d²/2`
times the covariance, times the probability that the draws are finite. -/
theorem C85_excess {chol : Chol} (hc : Spec.Cholesky chol) (C : Matrix (Fin 2) (Fin 2) ℝ) (hC : C.PosDef)
    (names : Fin 2 → Str) (opts : Fin 2 → DeltaOpts) (d : ℝ) (hd : ∀ i, d ^ 2 * C i i < 1/4)
    (prob : (Fin 2 → ℝ) → ℝ) (pscale : PSpec) (hst : Spec.Stored prob pscale fun _ => 1) (tran : ℝ)
    (start : Fin 2 → ℝ) (l : (Fin 2 → ℝ) → OPQR (Row (Fin 2 → ℝ))) (hl : ∀ x, Spec.At prob (l x) x) :
    ∫⁻ s in Set.univ.pi fun _ => Set.Ioo 0 1,
      Spec.within (Spec.spheres (RFTrans.fresh.setTran chol 2 (some ⟨2, 2, C⟩) none).1 names
        (fun i => Spec.unitCoord (opts i)) d false true prob tran start pscale) 1 (l s) {x | ∀ i, 1/2 < x i} =
      ENNReal.ofReal (1/4 + d ^ 2 / 2 * C 0 1 * Spec.over (n := 2) (Spec.finite d) fun _ => 1) := by
  classical
  obtain ⟨L, hL, htri, _, h⟩ := C84_steps hc RFTrans.fresh rfl C hC
  have hdiag : ∀ i, L i i ≠ 0 := by
    intro i
    have hdet : IsUnit C.det := (Matrix.isUnit_iff_isUnit_det C).mp hC.isUnit
    rw [← hL, det_mul] at hdet
    have hdL := (isUnit_of_mul_isUnit_left hdet).ne_zero
    rw [det_of_isLowerTriangular L fun i j h => htri i j h] at hdL
    exact Finset.prod_ne_zero_iff.mp hdL i (Finset.mem_univ i)
  set cs : Fin 2 → Spec.Coord := fun i => Spec.unitCoord (opts i) with hcs
  set cs' : Fin 2 → FCoord := fun i => (cs i).coord with hcs'
  set A : Set (Fin 2 → ℝ) := {x | ∀ i, 1/2 < x i} with hA
  have hAm : MeasurableSet A := by
    have : A = ⋂ i, {x | 1/2 < x i} := by ext x; simp [hA]
    rw [this]
    exact MeasurableSet.iInter fun i => measurableSet_lt measurable_const (measurable_pi_apply i)
  have hwalk : ∀ i, Spec.Walkable (cs i) false true := fun i =>
    ⟨fun s => rfl, measurable_id, by simp, fun _ => trivial⟩
  have hB : sides cs true = fun _ => Set.Ioo 0 1 := by
    funext i
    ext s
    simp only [sides, hcs, Spec.unitCoord, Spec.MemF, UFun.inv, Set.mem_setOf_eq, true_imp_iff, Set.mem_Ioo]
    have h1 : (s : EReal) < 1 ↔ s < 1 := by
      rw [show (1:EReal) = ((1:ℝ):EReal) from rfl, EReal.coe_lt_coe_iff]
    simp [h1]
  have hval : ∀ s, Spec.values cs s = s := fun s => rfl
  set e := sphMove cs' d false L with he
  have hem : Measurable e := sphMove_measurable _ d false L
  -- one step
  have hratio : Spec.ratio 1 1 = 1 := by
    have : npz ≤ 1 := by unfold npz; norm_num
    simp [Spec.ratio, max_eq_right this]
  have hone : ∀ s, Spec.within (Spec.spheres (RFTrans.fresh.setTran chol 2 (some ⟨2, 2, C⟩) none).1 names
        cs d false true prob tran start pscale) 1 (l s) A =
      ∫⁻ u, A.indicator 1 (jointTo (fun _ => Set.Ioo 0 1) e s u) ∂cubeLaw 2 := by
    intro s
    unfold Spec.spheres
    rw [within_of (sphStep_of (by norm_num) _ L (fun δ => (h δ).2) names cs' d false true) hst tran start A 1 (l s) s
      (hl s), Function.iterate_one]
    unfold afterF
    refine lintegral_congr_ae ?_
    filter_upwards [sphTo_joint cs d false true L hwalk hdiag] with u hu
    have := hu s
    rw [hval, hval, hB] at this
    rw [hratio, this]
    simp
    rfl
  simp only [hone]
  -- the size of the moves
  have hsmall : ∀ u i, e u i ^ 2 < 1/4 := by
    intro u i
    by_cases hfin : u ∈ Spec.finite (n := 2) d
    · have hmv : e u = L *ᵥ sphComp cs' d false u := if_pos (by simpa [radius, drawSq, Spec.finite] using hfin)
      rw [hmv]
      have hcs := Finset.sum_mul_sq_le_sq_mul_sq Finset.univ (fun k => L i k) (sphComp cs' d false u)
      rw [sphComp_sq cs' d u hfin] at hcs
      have hCi : ∑ k, L i k ^ 2 = C i i := by
        rw [← hL, Matrix.mul_apply]
        exact Finset.sum_congr rfl fun k _ => by rw [transpose_apply, sq]
      rw [hCi] at hcs
      simp only [mulVec, dotProduct]
      linarith [hd i]
    · have hmv : e u = 0 := if_neg (by simpa [radius, drawSq, Spec.finite] using hfin)
      rw [hmv]
      norm_num
  have hrange : ∀ u i, -(1/2) < e u i ∧ e u i < 1/2 := by
    intro u i
    have := abs_lt_of_sq_lt_sq (a := e u i) (b := 1/2) (by linarith [hsmall u i]) (by norm_num)
    exact ⟨(abs_lt.mp this).1, (abs_lt.mp this).2⟩
  have hjm := jointTo_measurable (B := fun _ : Fin 2 => Set.Ioo (0:ℝ) 1) (fun _ => measurableSet_Ioo) hem
  rw [lintegral_lintegral_swap]
  swap
  · exact ((measurable_one.indicator hAm).comp hjm).aemeasurable
  -- for each draw
  have hvol : ∀ u, ∫⁻ s in Set.univ.pi fun _ => Set.Ioo 0 1,
      A.indicator (1 : (Fin 2 → ℝ) → ENNReal) (jointTo (fun _ => Set.Ioo 0 1) e s u) =
      ENNReal.ofReal ((1/2 + e u 0) * (1/2 + e u 1)) := by
    intro u
    have hpre : MeasurableSet {s : Fin 2 → ℝ | jointTo (fun _ => Set.Ioo 0 1) e s u ∈ A} :=
      (hjm.comp (measurable_id.prodMk measurable_const)) hAm
    have hi : ∀ s, A.indicator (1 : (Fin 2 → ℝ) → ENNReal) (jointTo (fun _ => Set.Ioo 0 1) e s u) =
        {s : Fin 2 → ℝ | jointTo (fun _ => Set.Ioo 0 1) e s u ∈ A}.indicator 1 s := fun s => rfl
    simp only [hi]
    rw [lintegral_indicator_one hpre, Measure.restrict_apply hpre]
    have hset : {s : Fin 2 → ℝ | jointTo (fun _ => Set.Ioo 0 1) e s u ∈ A} ∩ (Set.univ.pi fun _ => Set.Ioo 0 1) =
        Set.univ.pi fun i => Set.Ioo (1/2 - e u i) 1 := by
      ext s
      have hb := fun i => Set.ext_iff.mp (bounce_above (e u i) (hrange u i).1 (hrange u i).2) (s i)
      simp only [Set.mem_inter_iff, Set.mem_pi, Set.mem_univ, true_imp_iff, Set.mem_setOf_eq, hA, jointTo] at hb ⊢
      rw [← forall_and]
      refine forall_congr' fun i => ?_
      rw [← hb i, and_comm]
      by_cases hm : s i + e u i ∈ Set.Ioo (0:ℝ) 1
      · simp only [hm, if_true]
      · simp only [hm, if_false]
    rw [hset, Real.volume_pi_Ioo, Fin.prod_univ_two, ← ENNReal.ofReal_mul (by linarith [(hrange u 0).1])]
    congr 1
    ring
  simp only [hvol]
  -- the mean
  have hS : MeasurableSet (Spec.finite d : Set (Fin 2 → ℝ)) := measurableSet_le measurable_const (drawSq_measurable d)
  have hei : ∀ i, Measurable fun u => e u i := fun i => (measurable_pi_apply i).comp hem
  have hint : ∀ i, Integrable (fun u => e u i) (cubeLaw 2) := fun i =>
    Integrable.of_bound (hei i).aestronglyMeasurable (1/2) (Filter.Eventually.of_forall fun u => by
      rw [Real.norm_eq_abs, abs_le]
      exact ⟨(hrange u i).1.le, (hrange u i).2.le⟩)
  have hint2 : Integrable (fun u => e u 0 * e u 1) (cubeLaw 2) :=
    Integrable.of_bound ((hei 0).mul (hei 1)).aestronglyMeasurable 1 (Filter.Eventually.of_forall fun u => by
      rw [Real.norm_eq_abs, abs_mul]
      have h0 := abs_le.mpr ⟨(hrange u 0).1.le, (hrange u 0).2.le⟩
      have h1 := abs_le.mpr ⟨(hrange u 1).1.le, (hrange u 1).2.le⟩
      nlinarith [abs_nonneg (e u 0), abs_nonneg (e u 1)])
  have hmoments := (sphComp_signLike cs' d).linear (fun i k => L i k) (sphComp_second cs' d)
  have hover : ∀ f : (Fin 2 → ℝ) → ℝ, ∫ u, f u ∂(cubeLaw 2).restrict (Spec.finite d) = Spec.over (Spec.finite d) f := by
    intro f
    unfold Spec.over
    rw [Measure.restrict_restrict hS, Set.inter_comm]
  have hind : ∀ i u, e u i = (Spec.finite (n := 2) d).indicator (fun u => ∑ k, L i k * sphComp cs' d false u k) u := by
    intro i u
    by_cases hfin : u ∈ Spec.finite (n := 2) d
    · have hmv : e u = L *ᵥ sphComp cs' d false u := if_pos (by simpa [radius, drawSq, Spec.finite] using hfin)
      rw [hmv, Set.indicator_of_mem hfin]
      rfl
    · have hmv : e u = 0 := if_neg (by simpa [radius, drawSq, Spec.finite] using hfin)
      rw [hmv, Set.indicator_of_notMem hfin]
      rfl
  have hmean : ∀ i, ∫ u, e u i ∂cubeLaw 2 = 0 := by
    intro i
    simp only [hind i]
    rw [integral_indicator hS]
    exact hmoments.1 i
  have hprod : ∫ u, e u 0 * e u 1 ∂cubeLaw 2 = d ^ 2 / 2 * C 0 1 * Spec.over (n := 2) (Spec.finite d) fun _ => 1 := by
    have : ∀ u, e u 0 * e u 1 = (Spec.finite (n := 2) d).indicator
        (fun u => (∑ k, L 0 k * sphComp cs' d false u k) * ∑ k, L 1 k * sphComp cs' d false u k) u := by
      intro u
      rw [hind, hind]
      by_cases hfin : u ∈ Spec.finite (n := 2) d
      · simp only [Set.indicator_of_mem hfin]
      · simp only [Set.indicator_of_notMem hfin, mul_zero]
    simp only [this]
    rw [integral_indicator hS, hmoments.2 0 1, hover, ← hL, Matrix.mul_apply]
    simp only [transpose_apply, Nat.cast_ofNat]
    ring
  rw [← ofReal_integral_eq_lintegral_ofReal]
  · congr 1
    have hexp : ∀ u, (1/2 + e u 0) * (1/2 + e u 1) = (1/4 + (1/2 * e u 0 + 1/2 * e u 1)) + e u 0 * e u 1 := by
      intro u; ring
    simp only [hexp]
    have i1 : ∀ i, Integrable (fun u => 1/2 * e u i) (cubeLaw 2) := fun i => (hint i).const_mul _
    have i2 : Integrable (fun u => 1/2 * e u 0 + 1/2 * e u 1) (cubeLaw 2) := (i1 0).add (i1 1)
    have i3 : Integrable (fun u => 1/4 + (1/2 * e u 0 + 1/2 * e u 1)) (cubeLaw 2) := (integrable_const _).add i2
    rw [integral_add i3 hint2, integral_add (integrable_const _) i2, integral_add (i1 0) (i1 1), integral_const_mul, integral_const_mul, hmean, hmean,
      hprod]
    simp
  · have hexp : (fun u => (1/2 + e u 0) * (1/2 + e u 1)) = fun u =>
        (1/4 + (1/2 * e u 0 + 1/2 * e u 1)) + e u 0 * e u 1 := by
      funext u; ring
    rw [hexp]
    exact ((integrable_const _).add (((hint 0).const_mul _).add ((hint 1).const_mul _))).add hint2
  · exact Filter.Eventually.of_forall fun u =>
      mul_nonneg (by linarith [(hrange u 0).1]) (by linarith [(hrange u 1).1])

/-- C85: covariances that are not diagonal do not keep the uniform target within bounds. -/
theorem C85_covariance_claim_fails : ¬ C85_covariance_claim := by
  intro h
  obtain ⟨chol, hc⟩ := exists_cholesky
  set cs : Fin 2 → Spec.Coord := fun _ => Spec.unitCoord ⟨none, false, false⟩ with hcs
  have hwalk : ∀ i, Spec.Walkable (cs i) false true := fun i =>
    ⟨fun s => rfl, measurable_id, by simp, fun _ => trivial⟩
  let l : (Fin 2 → ℝ) → OPQR (Row (Fin 2 → ℝ)) := fun x =>
    ⟨none, some ⟨x, .scalar 1⟩, some ⟨x, .scalar 1⟩, none⟩
  have hl : ∀ x, Spec.At (fun _ => 1) (l x) x := fun x => ⟨rfl, _, rfl⟩
  set A : Set (Fin 2 → ℝ) := {x | ∀ i, 1/2 < x i} with hA
  have hAm : MeasurableSet A := by
    have : A = ⋂ i, {x | 1/2 < x i} := by ext x; simp [hA]
    rw [this]
    exact MeasurableSet.iInter fun i => measurableSet_lt measurable_const (measurable_pi_apply i)
  have hkeep := h chol hc 2 (by norm_num) _ correlated_posDef (fun _ => ['x']) cs (1/4) false true hwalk (fun _ => 1)
    (.flt 1) (fun _ => 1) 1 0 one_stored measurable_const l hl 1 A hAm
  have hbox : {s : Fin 2 → ℝ | Spec.values cs s ∈ Spec.domain cs true} = Set.univ.pi fun _ => Set.Ioo 0 1 := by
    ext s
    have h1 : ∀ x : ℝ, (x : EReal) < 1 ↔ x < 1 := by
      intro x
      rw [show (1:EReal) = ((1:ℝ):EReal) from rfl, EReal.coe_lt_coe_iff]
    simp [Spec.domain, Spec.values, hcs, Spec.unitCoord, Spec.MemF, UFun.inv, h1]
  have hquarter : {s : Fin 2 → ℝ | Spec.values cs s ∈ Spec.domain cs true ∩ A} =
      Set.univ.pi fun _ => Set.Ioo (1/2) 1 := by
    ext s
    have := Set.ext_iff.mp hbox s
    simp only [Set.mem_setOf_eq, Set.mem_inter_iff, Set.mem_pi, Set.mem_univ, true_imp_iff, Set.mem_Ioo] at this ⊢
    rw [this]
    constructor
    · rintro ⟨h1, h2⟩ i
      exact ⟨h2 i, (h1 i).2⟩
    · intro h1
      exact ⟨fun i => ⟨by linarith [(h1 i).1], (h1 i).2⟩, fun i => (h1 i).1⟩
  rw [hbox, hquarter] at hkeep
  have hex := C85_excess hc _ correlated_posDef (fun _ => ['x']) (fun _ => ⟨none, false, false⟩) (1/4)
    (by intro i; fin_cases i <;> norm_num) (fun _ => 1) (.flt 1) one_stored 1 0 l hl
  simp only [ENNReal.ofReal_one, one_mul] at hkeep
  replace hkeep := hex.symm.trans hkeep
  rw [lintegral_const, one_mul, Measure.restrict_apply MeasurableSet.univ, Set.univ_inter, Real.volume_pi_Ioo,
    Fin.prod_univ_two, ← ENNReal.ofReal_mul (by norm_num)] at hkeep
  -- some draws are finite
  have hpos : 0 < Spec.over (n := 2) (Spec.finite (1/4)) fun _ => 1 := by
    unfold Spec.over
    rw [integral_const, smul_eq_mul, mul_one]
    have hsub : (Set.univ.pi fun _ : Fin 2 => Set.Ico (3/4:ℝ) 1) ⊆
        (Set.univ.pi fun _ => Set.Ico 0 1) ∩ Spec.finite (n := 2) (1/4) := by
      intro u hu
      have h0 := hu 0 trivial
      have h1 := hu 1 trivial
      refine ⟨fun i _ => ⟨by linarith [(hu i trivial).1], (hu i trivial).2⟩, ?_⟩
      have : npz ≤ 1/64 := by unfold npz; norm_num
      simp only [Spec.finite, Set.mem_setOf_eq, Fin.sum_univ_two]
      nlinarith [h0.1, h1.1, sq_nonneg (2 * u 1 - 1), sq_nonneg (2 * u 0 - 1)]
    have hlow : (0 : ENNReal) < volume (Set.univ.pi fun _ : Fin 2 => Set.Ico (3/4:ℝ) 1) := by
      rw [Real.volume_pi_Ico]
      exact pos_iff_ne_zero.mpr (Finset.prod_ne_zero_iff.mpr fun _ _ =>
        (ENNReal.ofReal_pos.mpr (by norm_num)).ne')
    have hfin : volume ((Set.univ.pi fun _ : Fin 2 => Set.Ico (0:ℝ) 1) ∩ Spec.finite (n := 2) (1/4)) ≠ ⊤ := by
      refine ne_top_of_le_ne_top ?_ (measure_mono Set.inter_subset_left)
      rw [Real.volume_pi_Ico]
      simp
    rw [Measure.real, Measure.restrict_apply MeasurableSet.univ, Set.univ_inter]
    exact ENNReal.toReal_pos (lt_of_lt_of_le hlow (measure_mono hsub)).ne' hfin
  have hentry : (!![1, 1; 1, 2] : Matrix (Fin 2) (Fin 2) ℝ) 0 1 = 1 := rfl
  rw [hentry] at hkeep
  have := (ENNReal.ofReal_eq_ofReal_iff (by positivity) (by norm_num)).mp hkeep
  linarith

/-! ### Which values are reached -/

/-- The draws that are finite, but for the boundary. -/
def inner {n : ℕ} (d : ℝ) : Set (Fin n → ℝ) := {u | (∀ i, 0 < u i ∧ u i < 1) ∧ npz < drawSq d u}

/-- Where `A` can be reached from in `k` steps. -/
def origins {n : ℕ} (cs : Fin n → FCoord) (d : ℝ) (L : Matrix (Fin n) (Fin n) ℝ) (A : Set (Fin n → ℝ)) :
    ℕ → Set (Fin n → ℝ)
  | 0 => A
  | k + 1 => {x | ∃ u ∈ inner d, x + L *ᵥ sphComp cs d false u ∈ origins cs d L A k}

theorem origins_open {n : ℕ} (cs : Fin n → FCoord) (d : ℝ) (L : Matrix (Fin n) (Fin n) ℝ) {A : Set (Fin n → ℝ)}
    (hA : IsOpen A) : ∀ k, IsOpen (origins cs d L A k)
  | 0 => hA
  | k + 1 => by
      have : origins cs d L A (k + 1) =
          ⋃ u ∈ inner d, (fun x => x + L *ᵥ sphComp cs d false u) ⁻¹' origins cs d L A k := by
        ext x; simp [origins]
      rw [this]
      exact isOpen_biUnion fun u _ => (origins_open cs d L hA k).preimage (continuous_id.add continuous_const)

theorem drawSq_continuous {n : ℕ} (d : ℝ) : Continuous fun u : Fin n → ℝ => drawSq d u := by
  unfold drawSq
  fun_prop

theorem inner_open {n : ℕ} (d : ℝ) : IsOpen (inner d : Set (Fin n → ℝ)) := by
  have h : (inner d : Set (Fin n → ℝ)) = (⋂ i, {u : Fin n → ℝ | 0 < u i ∧ u i < 1}) ∩ {u | npz < drawSq d u} := by
    ext u; simp [inner]
  rw [h]
  refine (isOpen_iInter_of_finite fun i => ?_).inter (isOpen_lt continuous_const (drawSq_continuous d))
  exact (isOpen_lt continuous_const (continuous_apply (A := fun _ : Fin n => ℝ) i)).inter
    (isOpen_lt (continuous_apply (A := fun _ : Fin n => ℝ) i) continuous_const)

theorem sphComp_continuousOn {n : ℕ} (cs : Fin n → FCoord) (d : ℝ) (L : Matrix (Fin n) (Fin n) ℝ) :
    ContinuousOn (fun u => L *ᵥ sphComp cs d false u) (inner d) := by
  refine continuousOn_pi.mpr fun i => ?_
  simp only [mulVec, dotProduct]
  refine continuousOn_finset_sum _ fun k _ => continuousOn_const.mul ?_
  unfold sphComp
  refine ContinuousOn.mul (ContinuousOn.div ?_ ?_ ?_) continuousOn_const
  · exact ((continuous_const.mul ((continuous_const.mul
      (continuous_apply (A := fun _ : Fin n => ℝ) k)).sub continuous_const)).mul continuous_const).continuousOn
  · exact (Real.continuous_sqrt.comp (drawSq_continuous _)).continuousOn
  · intro u hu
    have : 0 < drawSq d u := npz_pos.trans hu.2
    exact (Real.sqrt_pos.mpr this).ne'

/-- Every vector of length `d` is a spherised delta. -/
theorem sphere_onto {n : ℕ} (cs : Fin n → FCoord) {d : ℝ} (hd : 0 < d) (hfin : npz < d ^ 2) (p : Fin n → ℝ)
    (hp : ∑ i, p i ^ 2 = d ^ 2) : ∃ u ∈ inner d, sphComp cs d false u = p := by
  set c := Real.sqrt ((1 + npz / d ^ 2) / 2) with hc
  have hd2 : 0 < d ^ 2 := by positivity
  have hq : 0 < npz / d ^ 2 := div_pos npz_pos hd2
  have hq1 : npz / d ^ 2 < 1 := (div_lt_one hd2).mpr hfin
  have hc2 : c ^ 2 = (1 + npz / d ^ 2) / 2 := Real.sq_sqrt (by linarith)
  have hc0 : 0 < c := Real.sqrt_pos.mpr (by linarith)
  have hc1 : c < 1 := by
    have : c ^ 2 < 1 := by rw [hc2]; linarith
    nlinarith
  have hdr : drawSq d (fun i => 1/2 + c * p i / (2 * d)) = c ^ 2 * d ^ 2 := by
    unfold drawSq
    rw [← hp, Finset.mul_sum]
    refine Finset.sum_congr rfl fun i _ => ?_
    field_simp
    ring
  refine ⟨fun i => 1/2 + c * p i / (2 * d), ⟨fun i => ?_, ?_⟩, ?_⟩
  · have h1 : p i ^ 2 ≤ d ^ 2 := by
      rw [← hp]
      exact Finset.single_le_sum (f := fun i => p i ^ 2) (fun i _ => sq_nonneg _) (Finset.mem_univ i)
    have h2 : |p i| ≤ d := abs_le_of_sq_le_sq h1 hd.le
    have h3 : |c * p i / (2 * d)| < 1/2 := by
      rw [abs_div, abs_mul, abs_of_pos hc0, abs_of_pos (by linarith : (0:ℝ) < 2 * d), div_lt_iff₀ (by linarith)]
      nlinarith [abs_nonneg (p i)]
    obtain ⟨h4, h5⟩ := abs_lt.mp h3
    constructor <;> linarith
  · rw [hdr, hc2]
    have : (1 + npz / d ^ 2) / 2 * d ^ 2 = (d ^ 2 + npz) / 2 := by field_simp
    rw [this]
    linarith
  · funext i
    simp only [sphComp, radius, Bool.false_eq_true, if_false, mul_one, hdr]
    have : c ^ 2 * d ^ 2 = (c * d) ^ 2 := by ring
    rw [this, Real.sqrt_sq (by positivity)]
    field_simp
    ring

/-- In two dimensions or more, some vector of given length is orthogonal to a given one. -/
theorem exists_orthogonal {n : ℕ} (hn : 2 ≤ n) (v : Fin n → ℝ) (ρ : ℝ) (hρ : 0 ≤ ρ) :
    ∃ r : Fin n → ℝ, ∑ i, r i * v i = 0 ∧ ∑ i, r i ^ 2 = ρ := by
  let a : Fin n := ⟨0, by omega⟩
  let b : Fin n := ⟨1, by omega⟩
  have hab : a ≠ b := by simp [a, b]
  have hsum : ∀ (x y : ℝ) (f : Fin n → ℝ → ℝ), (∀ i, f i 0 = 0) →
      ∑ i, f i (if i = a then x else if i = b then y else 0) = f a x + f b y := by
    intro x y f hf
    rw [← Finset.sum_subset (Finset.subset_univ {a, b}), Finset.sum_pair hab]
    · simp [hab.symm]
    · intro i _ hi
      simp only [Finset.mem_insert, Finset.mem_singleton, not_or] at hi
      rw [if_neg hi.1, if_neg hi.2, hf]
  by_cases h : v a ^ 2 + v b ^ 2 = 0
  · have ha : v a = 0 := by nlinarith [sq_nonneg (v a), sq_nonneg (v b)]
    refine ⟨fun i => if i = a then Real.sqrt ρ else if i = b then 0 else 0, ?_, ?_⟩
    · rw [hsum _ _ (fun i x => x * v i) (by simp), ha]
      ring
    · rw [hsum _ _ (fun i x => x ^ 2) (by simp), Real.sq_sqrt hρ]
      ring
  · have hpos : 0 < v a ^ 2 + v b ^ 2 := lt_of_le_of_ne (by positivity) (Ne.symm h)
    set t := Real.sqrt (ρ / (v a ^ 2 + v b ^ 2)) with ht
    have ht2 : t ^ 2 = ρ / (v a ^ 2 + v b ^ 2) := Real.sq_sqrt (by positivity)
    refine ⟨fun i => if i = a then t * v b else if i = b then -(t * v a) else 0, ?_, ?_⟩
    · rw [hsum _ _ (fun i x => x * v i) (by simp)]
      ring
    · rw [hsum _ _ (fun i x => x ^ 2) (by simp)]
      have : (t * v b) ^ 2 + (-(t * v a)) ^ 2 = t ^ 2 * (v a ^ 2 + v b ^ 2) := by ring
      rw [this, ht2]
      field_simp

theorem two_steps {n : ℕ} (hn : 2 ≤ n) (cs : Fin n → FCoord) {d : ℝ} (hd : 0 < d) (hfin : npz < d ^ 2)
    (L : Matrix (Fin n) (Fin n) ℝ) (A : Set (Fin n → ℝ)) (v : Fin n → ℝ) (hv : ∑ i, v i ^ 2 ≤ 4 * d ^ 2) (k : ℕ)
    (x : Fin n → ℝ) (hx : x + L *ᵥ v ∈ origins cs d L A k) : x ∈ origins cs d L A (k + 2) := by
  obtain ⟨r, hr, hr2⟩ := exists_orthogonal hn v (d ^ 2 - (∑ i, v i ^ 2) / 4) (by linarith)
  have hp : ∀ σ : ℝ, σ ^ 2 = 1 → ∑ i, (v i / 2 + σ * r i) ^ 2 = d ^ 2 := by
    intro σ hσ
    have h1 : ∀ i, (v i / 2 + σ * r i) ^ 2 = v i ^ 2 / 4 + σ * (r i * v i) + σ ^ 2 * r i ^ 2 := fun i => by ring
    simp only [h1, Finset.sum_add_distrib, ← Finset.mul_sum, ← Finset.sum_div, hr, hr2, hσ]
    ring
  obtain ⟨u, hu, hu'⟩ := sphere_onto cs hd hfin _ (hp 1 (by norm_num))
  obtain ⟨u2, hu2, hu2'⟩ := sphere_onto cs hd hfin _ (hp (-1) (by norm_num))
  refine ⟨u, hu, u2, hu2, ?_⟩
  rw [hu', hu2', add_assoc, ← mulVec_add]
  have : ((fun i => v i / 2 + 1 * r i) + fun i => v i / 2 + -1 * r i) = v := by
    funext i
    simp only [Pi.add_apply]
    ring
  rw [this]
  exact hx

theorem many_steps {n : ℕ} (hn : 2 ≤ n) (cs : Fin n → FCoord) {d : ℝ} (hd : 0 < d) (hfin : npz < d ^ 2)
    (L : Matrix (Fin n) (Fin n) ℝ) (A : Set (Fin n → ℝ)) (v : Fin n → ℝ) (hv : ∑ i, v i ^ 2 ≤ 4 * d ^ 2) :
    ∀ (m : ℕ) (x : Fin n → ℝ), x + (m : ℝ) • (L *ᵥ v) ∈ A → x ∈ origins cs d L A (2 * m)
  | 0, x, hx => by simpa [origins] using hx
  | m + 1, x, hx => by
      refine two_steps hn cs hd hfin L A v hv (2 * m) x (many_steps hn cs hd hfin L A v hv m _ ?_)
      have : x + L *ᵥ v + (m : ℝ) • (L *ᵥ v) = x + ((m + 1 : ℕ) : ℝ) • (L *ᵥ v) := by
        rw [add_assoc]
        congr 1
        push_cast
        rw [add_smul, one_smul, add_comm]
      rwa [this]

theorem origins_all {n : ℕ} (hn : 2 ≤ n) (cs : Fin n → FCoord) {d : ℝ} (hd : 0 < d) (hfin : npz < d ^ 2)
    (L : Matrix (Fin n) (Fin n) ℝ) (hL : IsUnit L.det) (A : Set (Fin n → ℝ)) (a : Fin n → ℝ) (ha : a ∈ A)
    (x : Fin n → ℝ) : ∃ k, x ∈ origins cs d L A k := by
  set V := L⁻¹ *ᵥ (a - x) with hV
  have hLV : L *ᵥ V = a - x := by
    rw [hV, mulVec_mulVec, Matrix.mul_nonsing_inv _ hL, one_mulVec]
  obtain ⟨m, hm⟩ := exists_nat_gt (max 1 ((∑ i, V i ^ 2) / (4 * d ^ 2)))
  have hm1 : (1:ℝ) < m := lt_of_le_of_lt (le_max_left _ _) hm
  have hm2 : (∑ i, V i ^ 2) / (4 * d ^ 2) < m := lt_of_le_of_lt (le_max_right _ _) hm
  have hd2 : 0 < 4 * d ^ 2 := by positivity
  refine ⟨2 * m, many_steps hn cs hd hfin L A ((m : ℝ)⁻¹ • V) ?_ m x ?_⟩
  · rw [div_lt_iff₀ hd2] at hm2
    have : ∑ i, ((m : ℝ)⁻¹ • V) i ^ 2 = (∑ i, V i ^ 2) / (m * m) := by
      rw [Finset.sum_div]
      refine Finset.sum_congr rfl fun i _ => ?_
      simp only [Pi.smul_apply, smul_eq_mul]
      field_simp
    rw [this, div_le_iff₀ (by positivity)]
    have h3 : (m : ℝ) * (4 * d ^ 2) ≤ m * m * (4 * d ^ 2) :=
      mul_le_mul_of_nonneg_right (by nlinarith) hd2.le
    linarith
  · rw [mulVec_smul, smul_smul, mul_inv_cancel₀ (by positivity), one_smul, hLV]
    simpa using ha

theorem sphere_reached {n : ℕ} (hn : 2 ≤ n) (cs : Fin n → Spec.Coord) {d : ℝ} (hd : 0 < d) (hfin : npz < d ^ 2)
    (huf : ∀ i, (cs i).uf = none) (L : Matrix (Fin n) (Fin n) ℝ) (hL : ∀ i, L i i ≠ 0) (hdet : IsUnit L.det)
    {step : (Fin n → ℝ) → FDraw n → Py (Fin n → ℝ)}
    (hstep : ∀ v u t, step v ⟨u, t⟩ = .ok (sphTo (fun i => (cs i).coord) d false false L v u) ∨
      Raises (step v ⟨u, t⟩) ∧ sphTo (fun i => (cs i).coord) d false false L v u = v)
    (prob : (Fin n → ℝ) → ℝ) (pscale : PSpec) (w : (Fin n → ℝ) → ℝ) (tran : ℝ) (start : Fin n → ℝ)
    (hst : Spec.Stored prob pscale w) (hw : Measurable w) (hpos : ∀ x, 0 < w x)
    (l : OPQR (Row (Fin n → ℝ))) (x : Fin n → ℝ) (hl : Spec.At prob l x) (A : Set (Fin n → ℝ)) (hA : IsOpen A)
    (a : Fin n → ℝ) (ha : a ∈ A) :
    ∃ k, 0 < Spec.within (walkProc step prob tran start pscale FDraw.t) k l A := by
  classical
  have hwalk : ∀ i, Spec.Walkable (cs i) false false := fun i =>
    ⟨by rw [huf i]; exact fun s => rfl, by rw [huf i]; exact measurable_id, by simp, by simp⟩
  have hval : ∀ s, Spec.values cs s = s := by
    intro s
    funext i
    simp only [Spec.values, huf i]
    rfl
  have hB : ∀ i, sides cs false i = Set.univ := by intro i; simp [sides]
  set e := sphMove (fun i => (cs i).coord) d false L with he
  have hem : Measurable e := sphMove_measurable _ d false L
  have hjm := jointTo_measurable (B := sides cs false) (fun i => by rw [hB i]; exact MeasurableSet.univ) hem
  have hj : ∀ s u, jointTo (sides cs false) e s u = s + e u := by
    intro s u
    funext i
    simp [jointTo, hB]
  obtain ⟨k, hk⟩ := origins_all hn (fun i => (cs i).coord) hd hfin L hdet A a ha x
  refine ⟨k, ?_⟩
  have hwv : (fun s => w (Spec.values cs s)) = w := by funext s; rw [hval]
  have hAv : Spec.values cs ⁻¹' A = A := by ext s; simp [hval]
  have hiter := sph_iter cs d false false L hwalk hL w A k x
  rw [hval, hwv, hAv] at hiter
  rw [within_of hstep hst tran start A k l x hl, hiter]
  have hFm : ∀ k, Measurable ((afterF (cubeLaw n) w (jointTo (sides cs false) e))^[k] (A.indicator 1)) := by
    intro k
    induction k with
    | zero => exact measurable_one.indicator hA.measurableSet
    | succ k ih =>
        rw [Function.iterate_succ_apply']
        exact afterF_measurable hw hjm ih
  -- positive where it can be reached
  have key : ∀ k x, x ∈ origins (fun i => (cs i).coord) d L A k →
      0 < ((afterF (cubeLaw n) w (jointTo (sides cs false) e))^[k] (A.indicator 1)) x := by
    intro k
    induction k with
    | zero =>
        intro x hx
        have hx : x ∈ A := hx
        simp [Set.indicator_of_mem hx]
    | succ k ih =>
        intro x hx
        rw [Function.iterate_succ_apply']
        set G := (afterF (cubeLaw n) w (jointTo (sides cs false) e))^[k] (A.indicator 1) with hG
        obtain ⟨u₀, hu₀, hr⟩ := hx
        set O : Set (Fin n → ℝ) := inner d ∩ (fun u => x + L *ᵥ sphComp (fun i => (cs i).coord) d false u) ⁻¹'
          origins (fun i => (cs i).coord) d L A k with hO
        have hOo : IsOpen O := (continuousOn_const.add (sphComp_continuousOn _ d L)).isOpen_inter_preimage
          (inner_open d) (origins_open _ d L hA k)
        have hvol : 0 < volume O := hOo.measure_pos volume ⟨u₀, hu₀, hr⟩
        have hint : Measurable fun u => ENNReal.ofReal (Spec.ratio (w x) (w (jointTo (sides cs false) e x u))) *
            G (jointTo (sides cs false) e x u) +
            ENNReal.ofReal (1 - Spec.ratio (w x) (w (jointTo (sides cs false) e x u))) * G x := by
          have hj1 : Measurable fun u => jointTo (sides cs false) e x u :=
            hjm.comp (measurable_const.prodMk measurable_id)
          have h1 : Measurable fun u => Spec.ratio (w x) (w (jointTo (sides cs false) e x u)) :=
            ratio_measurable.comp (measurable_const.prodMk (hw.comp hj1))
          exact ((ENNReal.measurable_ofReal.comp h1).mul ((hFm k).comp hj1)).add
            ((ENNReal.measurable_ofReal.comp (measurable_const.sub h1)).mul measurable_const)
        unfold afterF
        rw [lintegral_pos_iff_support hint]
        refine lt_of_lt_of_le hvol ?_
        have hsub : O ⊆ Set.univ.pi fun _ => Set.Ico 0 1 := fun u hu i _ => ⟨(hu.1.1 i).1.le, (hu.1.1 i).2⟩
        unfold cubeLaw
        rw [← Measure.restrict_eq_self volume hsub]
        refine measure_mono fun u hu => ?_
        have hfinu : npz ≤ drawSq (radius (fun i => (cs i).coord) d false) u := by
          simpa [radius] using hu.1.2.le
        have hmv : e u = L *ᵥ sphComp (fun i => (cs i).coord) d false u := if_pos hfinu
        have hGpos : 0 < G (jointTo (sides cs false) e x u) := by
          rw [hj, hmv]
          exact ih _ hu.2
        have hrpos : 0 < Spec.ratio (w x) (w (jointTo (sides cs false) e x u)) := by
          unfold Spec.ratio
          exact lt_min one_pos (div_pos (hpos _) (lt_max_of_lt_left npz_pos))
        refine ne_of_gt (lt_of_lt_of_le ?_ le_self_add)
        exact ENNReal.mul_pos (ENNReal.ofReal_pos.mpr hrpos).ne' hGpos.ne'
  exact key k x hk

/-- C85 full claim: where the density is positive, spherised steps that are not bounded reach
every open set of values from everywhere. -/
def C85_reached_claim : Prop :=
  ∀ (n : ℕ), 0 < n → ∀ (names : Fin n → Str) (cs : Fin n → Spec.Coord) (d : ℝ), 0 < d → npz < d ^ 2 →
    (∀ i, (cs i).uf = none) → ∀ (prob : (Fin n → ℝ) → ℝ) (pscale : PSpec) (w : (Fin n → ℝ) → ℝ) (tran : ℝ)
    (start : Fin n → ℝ), Spec.Stored prob pscale w → Measurable w → (∀ x, 0 < w x) →
    ∀ (l : OPQR (Row (Fin n → ℝ))) (x : Fin n → ℝ), Spec.At prob l x → ∀ A, IsOpen A → A.Nonempty →
    ∃ k, 0 < Spec.within (Spec.spheres RFTrans.fresh names cs d false false prob tran start pscale) k l A

/-- C85 for what holds: with two variables or more, also with a covariance. -/
theorem C85_reached_partial {n : ℕ} (hn : 2 ≤ n) (names : Fin n → Str) (cs : Fin n → Spec.Coord) (d : ℝ) (hd : 0 < d)
    (hfin : npz < d ^ 2) (huf : ∀ i, (cs i).uf = none) (prob : (Fin n → ℝ) → ℝ) (pscale : PSpec)
    (w : (Fin n → ℝ) → ℝ) (tran : ℝ) (start : Fin n → ℝ) (hst : Spec.Stored prob pscale w) (hw : Measurable w)
    (hpos : ∀ x, 0 < w x) (l : OPQR (Row (Fin n → ℝ))) (x : Fin n → ℝ) (hl : Spec.At prob l x)
    (A : Set (Fin n → ℝ)) (hA : IsOpen A) (hne : A.Nonempty) :
    (∃ k, 0 < Spec.within (Spec.spheres RFTrans.fresh names cs d false false prob tran start pscale) k l A) ∧
    ∀ chol, Spec.Cholesky chol → ∀ C : Matrix (Fin n) (Fin n) ℝ, C.PosDef →
      ∃ k, 0 < Spec.within (Spec.spheres (RFTrans.fresh.setTran chol n (some ⟨n, n, C⟩) none).1 names cs d false false
        prob tran start pscale) k l A := by
  obtain ⟨a, ha⟩ := hne
  constructor
  · exact sphere_reached hn cs hd hfin huf 1 (by simp) (by simp)
      (sphStep_of (by omega) RFTrans.fresh 1 (by simp [RFTrans.evalMoves, RFTrans.fresh]) names _ d false false)
      prob pscale w tran start hst hw hpos l x hl A hA a ha
  · intro chol hc C hC
    obtain ⟨L, hL, htri, _, h⟩ := C84_steps hc RFTrans.fresh rfl C hC
    have hdet : IsUnit C.det := (Matrix.isUnit_iff_isUnit_det C).mp hC.isUnit
    rw [← hL, det_mul] at hdet
    have hdL := isUnit_of_mul_isUnit_left hdet
    have hdiag : ∀ i, L i i ≠ 0 := by
      intro i
      have hdL := hdL.ne_zero
      rw [det_of_isLowerTriangular L fun i j h => htri i j h] at hdL
      exact Finset.prod_ne_zero_iff.mp hdL i (Finset.mem_univ i)
    exact sphere_reached hn cs hd hfin huf L hdiag hdL
      (sphStep_of (by omega) _ L (fun δ => (h δ).2) names _ d false false) prob pscale w tran start hst hw hpos l x hl
      A hA a ha

/-- C85: with a single variable, spherised steps stay on the points a whole number of deltas from
the start: nothing off them is ever reached. -/
theorem C85_lattice (names : Fin 1 → Str) (cs : Fin 1 → Spec.Coord) (d : ℝ) (huf : ∀ i, (cs i).uf = none)
    (prob : (Fin 1 → ℝ) → ℝ) (pscale : PSpec) (w : (Fin 1 → ℝ) → ℝ) (tran : ℝ) (start : Fin 1 → ℝ)
    (hst : Spec.Stored prob pscale w) (l : OPQR (Row (Fin 1 → ℝ))) (x : Fin 1 → ℝ) (hl : Spec.At prob l x)
    (A : Set (Fin 1 → ℝ)) (hA : ∀ m : ℤ, (fun _ => x 0 + m * d) ∉ A) (k : ℕ) :
    Spec.within (Spec.spheres RFTrans.fresh names cs d false false prob tran start pscale) k l A = 0 := by
  classical
  have hwalk : ∀ i, Spec.Walkable (cs i) false false := fun i =>
    ⟨by rw [huf i]; exact fun s => rfl, by rw [huf i]; exact measurable_id, by simp, by simp⟩
  have hval : ∀ s, Spec.values cs s = s := by
    intro s
    funext i
    simp only [Spec.values, huf i]
    rfl
  have hB : ∀ i, sides cs false i = Set.univ := by intro i; simp [sides]
  have hwv : (fun s => w (Spec.values cs s)) = w := by funext s; rw [hval]
  have hAv : Spec.values cs ⁻¹' A = A := by ext s; simp [hval]
  have hiter := sph_iter cs d false false 1 hwalk (by simp) w A k x
  rw [hval, hwv, hAv] at hiter
  have hw := within_of (sphStep_of (by omega) RFTrans.fresh 1 (by simp [RFTrans.evalMoves, RFTrans.fresh]) names
    (fun i => (cs i).coord) d false false) hst tran start A k l x hl
  refine hw.trans (hiter.trans ?_)
  set e := sphMove (fun i => (cs i).coord) d false 1 with he
  have hmove : ∀ u, ∃ q : ℤ, e u 0 = q * d := by
    intro u
    by_cases hfin : npz ≤ drawSq (radius (fun i => (cs i).coord) d false) u
    · have hmv : e u = (1 : Matrix (Fin 1) (Fin 1) ℝ) *ᵥ sphComp (fun i => (cs i).coord) d false u := if_pos hfin
      have hsq := sphComp_sq (fun i => (cs i).coord) d u (by simpa [radius, drawSq, Spec.finite] using hfin)
      rw [Fin.sum_univ_one] at hsq
      rw [hmv, one_mulVec]
      rcases sq_eq_sq_iff_eq_or_eq_neg.mp hsq with h | h
      · exact ⟨1, by rw [h]; simp⟩
      · exact ⟨-1, by rw [h]; simp⟩
    · have hmv : e u = 0 := if_neg hfin
      exact ⟨0, by rw [hmv]; simp⟩
  have key : ∀ (k : ℕ) (m : ℤ), ((afterF (cubeLaw 1) w (jointTo (sides cs false) e))^[k] (A.indicator 1))
      (fun _ => x 0 + m * d) = 0 := by
    intro k
    induction k with
    | zero => intro m; exact Set.indicator_of_notMem (hA m) _
    | succ k ih =>
        intro m
        rw [Function.iterate_succ_apply']
        unfold afterF at ih ⊢
        refine (lintegral_congr fun u => ?_).trans lintegral_zero
        obtain ⟨q, hq⟩ := hmove u
        have hj : jointTo (sides cs false) e (fun _ => x 0 + m * d) u = fun _ => x 0 + ((m + q : ℤ) : ℝ) * d := by
          funext i
          have hi : i = 0 := Subsingleton.elim _ _
          subst hi
          simp only [jointTo, hB, Set.mem_univ, if_true, hq]
          push_cast
          ring
        rw [hj, ih, ih]
        simp
  have hx : x = fun _ => x 0 + ((0 : ℤ) : ℝ) * d := by
    funext i
    have hi : i = 0 := Subsingleton.elim _ _
    subst hi
    simp
  rw [hx]
  exact key k 0

/-- C85 fails as first stated: a single variable never gets between the multiples of its delta. -/
theorem C85_reached_claim_fails : ¬ C85_reached_claim := by
  intro h
  have hl : Spec.At (fun _ : Fin 1 → ℝ => (1:ℝ)) ⟨none, some ⟨0, .scalar 1⟩, some ⟨0, .scalar 1⟩, none⟩ 0 :=
    ⟨rfl, _, rfl⟩
  obtain ⟨k, hk⟩ := h 1 one_pos (fun _ => ['x']) (fun _ => Spec.unitCoord ⟨none, false, false⟩) 1 one_pos
    (by unfold npz; norm_num) (fun _ => rfl) (fun _ => 1) (.flt 1) (fun _ => 1) 1 0 one_stored measurable_const
    (fun _ => one_pos) _ 0 hl {x | 0 < x 0 ∧ x 0 < 1}
    ((isOpen_lt continuous_const (continuous_apply 0)).inter (isOpen_lt (continuous_apply 0) continuous_const))
    ⟨fun _ => 1/2, by norm_num, by norm_num⟩
  rw [C85_lattice _ _ _ (fun _ => rfl) _ _ _ _ _ one_stored _ _ hl] at hk
  · exact lt_irrefl _ hk
  · rintro m ⟨h1, h2⟩
    simp only [Pi.zero_apply, zero_add, mul_one] at h1 h2
    have h1 : 0 < m := by exact_mod_cast h1
    have h2 : m < 1 := by exact_mod_cast h2
    omega

/-! ### Cases of the hypotheses -/

theorem bowl_measurable : Measurable fun x : Fin 2 → ℝ => 2 * (1 + x 0 ^ 2 + x 1 ^ 2) :=
  measurable_const.mul ((measurable_const.add ((measurable_pi_apply 0).pow_const 2)).add
    ((measurable_pi_apply 1).pow_const 2))

/-- One variable on the unit interval, and one between 1 and 4 whose steps are taken in its logarithm. -/
noncomputable def mixed : Fin 2 → Spec.Coord :=
  ![⟨.tuple (0 : ℝ) (1 : ℝ), none, ⟨none, false, false⟩, 1⟩,
    ⟨.tuple (1 : ℝ) (4 : ℝ), some (Real.log, Real.exp), ⟨none, false, false⟩, Real.log 4⟩]

theorem mixed_walkable (scale : Bool) (i : Fin 2) : Spec.Walkable (mixed i) scale true := by
  fin_cases i
  · exact ⟨fun _ => rfl, measurable_id, fun _ => one_ne_zero, fun _ => trivial⟩
  · exact ⟨Real.log_exp, Real.measurable_exp, fun _ => (Real.log_pos (by norm_num)).ne', fun _ => trivial⟩

/-- Scaled spherised steps within those limits keep the density. -/
example : Spec.KeepsDensity (Spec.spheres RFTrans.fresh (fun _ => ['x']) mixed (1/10) true true
    (fun x : Fin 2 → ℝ => 1 + x 0 ^ 2 + x 1 ^ 2) 1 0 (.flt 2))
    (fun x => 1 + x 0 ^ 2 + x 1 ^ 2) (fun x => 2 * (1 + x 0 ^ 2 + x 1 ^ 2)) (Spec.values mixed)
    (Spec.domain mixed true) :=
  C85_keeps (by norm_num) _ _ _ _ _ (mixed_walkable true) _ _ _ _ _ bowl_stored bowl_measurable

/-- So do steps shaped by a diagonal covariance. -/
example (chol : Chol) (hc : Spec.Cholesky chol) :
    Spec.KeepsDensity (Spec.spheres (RFTrans.fresh.setTran chol 2
      (some ⟨2, 2, diagonal ![1, 2]⟩) none).1 (fun _ => ['x']) mixed (1/10) true true
    (fun x : Fin 2 → ℝ => 1 + x 0 ^ 2 + x 1 ^ 2) 1 0 (.flt 2))
    (fun x => 1 + x 0 ^ 2 + x 1 ^ 2) (fun x => 2 * (1 + x 0 ^ 2 + x 1 ^ 2)) (Spec.values mixed)
    (Spec.domain mixed true) :=
  C85_covariance_partial hc (by norm_num) (diagonal ![1, 2])
    (PosDef.diagonal (by intro i; fin_cases i <;> norm_num)) _ _ _ _ _
    (fun _ i j h => diagonal_apply_ne _ h) (mixed_walkable true) _ _ _ _ _ bowl_stored bowl_measurable

/-- Two variables stepping by a radius of a tenth, with correlated steps, reach a box far from the start. -/
example (chol : Chol) (hc : Spec.Cholesky chol) (l : OPQR (Row (Fin 2 → ℝ)))
    (hl : Spec.At (fun x : Fin 2 → ℝ => 1 + x 0 ^ 2 + x 1 ^ 2) l 0) :
    ∃ k, 0 < Spec.within (Spec.spheres (RFTrans.fresh.setTran chol 2 (some ⟨2, 2, !![1, 1; 1, 2]⟩) none).1
      (fun _ => ['x']) (fun _ => Spec.unitCoord ⟨none, false, false⟩) (1/10) false false
      (fun x : Fin 2 → ℝ => 1 + x 0 ^ 2 + x 1 ^ 2) 1 0 (.flt 2)) k l (Set.univ.pi fun _ => Set.Ioo 99 100) :=
  (C85_reached_partial le_rfl _ _ _ (by norm_num) (by unfold npz; norm_num) (fun _ => rfl) _ _ _ _ _ bowl_stored
    bowl_measurable (fun x => by positivity) l 0 hl _ (isOpen_set_pi Set.finite_univ fun _ _ => isOpen_Ioo)
    ⟨fun _ => 199/2, fun _ _ => ⟨by norm_num, by norm_num⟩⟩).2 chol hc _ correlated_posDef

/-- A step: with both draws at three quarters, the field's delta of radius 1 is the diagonal
direction, and the chain, of a uniform density, moves. -/
example (l : OPQR (Row (Fin 2 → ℝ))) (hl : Spec.At (fun _ => 1) l 0) (t : ℝ) (ht : t ≤ 1) :
    ∃ l' smp, nextCore (Spec.spheres RFTrans.fresh (fun i => [if i = 0 then 'x' else 'y'])
        (fun _ => Spec.unitCoord ⟨none, false, false⟩) 1 false false (fun _ => 1) 1 0 (.flt 1)) (some l)
        ⟨fun _ => 3/4, t⟩ () = ((), some l', .ok (.sample smp)) ∧ Spec.At (fun _ => 1) l' fun _ => 1 / Real.sqrt 2 := by
  set cs : Fin 2 → Spec.Coord := fun _ => Spec.unitCoord ⟨none, false, false⟩ with hcs
  have hsq : drawSq (n := 2) 1 (fun _ => 3/4) = 1 / 2 := by
    simp only [drawSq, Fin.sum_univ_two]
    norm_num
  have hδ : sphComp (fun i => (cs i).coord) 1 false (fun _ => 3/4) = fun _ => 1 / Real.sqrt 2 := by
    funext i
    simp only [sphComp, radius, Bool.false_eq_true, if_false, hsq]
    rw [Real.sqrt_div zero_le_one, Real.sqrt_one]
    have h2 : Real.sqrt 2 * Real.sqrt 2 = 2 := Real.mul_self_sqrt (by norm_num)
    have h0 : Real.sqrt 2 ≠ 0 := by positivity
    field_simp
    nlinarith
  have hev : Spec.evaluated RFTrans.fresh (fun i => [if i = 0 then 'x' else 'y']) (fun i => (cs i).coord)
      (.sphere 1 false) (fun _ => 3/4) = .ok (.nums fun _ => 1 / Real.sqrt 2) := by
    have hfin : npz ≤ drawSq (n := 2) (radius (fun i => (cs i).coord) 1 false) (fun _ => 3/4) := by
      simp only [radius, Bool.false_eq_true, if_false, hsq]
      unfold npz
      norm_num
    unfold Spec.evaluated
    rw [fieldMoves_sphere (by norm_num), if_pos hfin, hδ]
    rfl
  obtain ⟨l', smp, h1, h2, _⟩ := (C85_step RFTrans.fresh (fun i => [if i = 0 then 'x' else 'y']) cs 1 false false
    (by simp) (fun _ => 1) (.flt 1) (fun _ => 1) 1 0 one_stored l 0 (fun _ => 3/4) t hl).1 _ (fun _ => 1 / Real.sqrt 2)
    hev (fun i => by positivity) (fun i => by
      simp only [Spec.offered, hcs, Spec.unitCoord, UFun.fwd, UFun.inv, Pi.zero_apply, zero_add]
      simp)
  refine ⟨l', smp, h1, (h2 ?_).1⟩
  have : Spec.ratio 1 1 = 1 := by
    unfold Spec.ratio
    rw [max_eq_right npz_lt_one.le]
    norm_num
  rw [this]
  exact ht

end Probayes
