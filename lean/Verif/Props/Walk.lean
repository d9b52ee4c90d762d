/-
C82: Metropolis chains of a variable with limits that steps by its deltas.
-/
import Mathlib.MeasureTheory.Measure.Lebesgue.Basic
import Mathlib.MeasureTheory.Integral.Lebesgue.Basic
import Verif.Model.Walk
import Verif.Props.MCMC

namespace Probayes

open MeasureTheory

/-! ### One step -/

/-- The chain is at the value `x`: that is the value last accepted, of probability
`prob x`. -/
def Spec.At {V : Type} (prob : V → ℝ) (l : OPQR (Row V)) (x : V) : Prop :=
  l.p = some ⟨x, .scalar (prob x)⟩ ∧ ∃ q, l.q = some ⟨x, q⟩

/-- The rule of Metropolis for weights `w`: accept if the threshold is at most the ratio,
capped at one (numbers below the smallest normal float are raised to it in the
denominator). -/
noncomputable def Spec.ratio (w w' : ℝ) : ℝ := min 1 (w' / max npz w)

/-- C82: from `x`, proposing `y`, the chain moves to `y` if the threshold is at most the
ratio of the probabilities, and stays otherwise; the verdict of the sample is the value
where it then is. -/
theorem C82_step {V Ω : Type} (step : V → Ω → Py V) (prob : V → ℝ) (tran : ℝ) (start : V)
    (pscale : PSpec) (a : PScale) (hs : evalPscale pscale = .ok a) (ha : Spec.Valid a)
    (hu : ∀ x, Spec.Unclamped (prob x) a (.lin 1)) (thresh : Ω → ℝ)
    (l : OPQR (Row V)) (x y : V) (ω : Ω) (hl : Spec.At prob l x) (hy : step x ω = .ok y) :
    ∃ l' smp, nextCore (walkProc step prob tran start pscale thresh) (some l) ω () =
        ((), some l', .ok (.sample smp)) ∧
      (thresh ω ≤ Spec.ratio (Spec.value a (prob x)) (Spec.value a (prob y)) →
        Spec.At prob l' y ∧ smp.v = some ⟨y, .scalar (prob y)⟩) ∧
      (¬ thresh ω ≤ Spec.ratio (Spec.value a (prob x)) (Spec.value a (prob y)) →
        l' = l ∧ smp.v = some ⟨x, .scalar (prob x)⟩) := by
  obtain ⟨hp, q, hq⟩ := hl
  have hsc := C35_score pscale a (prob x) (prob y) none none hs ha (hu x) (hu y)
  have hsc' : metropolisScores Row.prob
      (⟨some ⟨x, .scalar (prob x)⟩, some ⟨y, .scalar (prob y)⟩, some ⟨y, .scalar tran⟩, none⟩ :
        OPQR (Row V)) pscale =
      .ok (some (Spec.ratio (Spec.value a (prob x)) (Spec.value a (prob y)))) := by
    rw [Spec.ratio, ← hsc]
    rfl
  by_cases ht : thresh ω ≤ Spec.ratio (Spec.value a (prob x)) (Spec.value a (prob y))
  · exact ⟨⟨some ⟨x, .scalar (prob x)⟩, some ⟨y, .scalar (prob y)⟩, some ⟨y, .scalar tran⟩, none⟩, _,
      by simp [nextCore, walkProc, sampleTran, walkOps, hp, hq, hy, sampleFinish, judge, evalScores,
        evalUpdate, hsc', walkUpdate, metropolisUpdate, ht, bind, Except.bind, pure, Except.pure]; rfl,
      fun _ => ⟨⟨rfl, _, rfl⟩, rfl⟩, fun h => absurd ht h⟩
  · exact ⟨l, _,
      by simp [nextCore, walkProc, sampleTran, walkOps, hp, hq, hy, sampleFinish, judge, evalScores,
        evalUpdate, hsc', walkUpdate, metropolisUpdate, ht, bind, Except.bind, pure, Except.pure]; rfl,
      fun h => absurd h ht, fun _ => ⟨rfl, rfl⟩⟩

/-! ### Integer variables with random signs -/

/-- The set of an integer variable: all integers from `lo` to `hi`. -/
def Spec.Whole (vset : List ℤ) (lo hi : ℤ) : Prop := lo ≤ hi ∧ ∀ z, z ∈ vset ↔ lo ≤ z ∧ z ≤ hi

theorem whole_vlims {vset : List ℤ} {lo hi : ℤ} (h : Spec.Whole vset lo hi) :
    vlimsD vset = some (lo, hi) := by
  obtain ⟨hle, hm⟩ := h
  cases vset with
  | nil => exact absurd ((hm lo).mpr ⟨le_refl _, hle⟩) (by simp)
  | cons x xs =>
      have hmin : ∀ (xs : List ℤ) (x : ℤ), xs.foldl min x ∈ x :: xs := by
        intro xs
        induction xs with
        | nil => simp
        | cons y ys ih =>
            intro x
            have := ih (min x y)
            simp only [List.foldl_cons, List.mem_cons] at this ⊢
            rcases this with h | h
            · rcases min_choice x y with h' | h' <;> rw [h'] at h ⊢ <;> simp [h]
            · simp [h]
      have hmax : ∀ (xs : List ℤ) (x : ℤ), xs.foldl max x ∈ x :: xs := by
        intro xs
        induction xs with
        | nil => simp
        | cons y ys ih =>
            intro x
            have := ih (max x y)
            simp only [List.foldl_cons, List.mem_cons] at this ⊢
            rcases this with h | h
            · rcases max_choice x y with h' | h' <;> rw [h'] at h ⊢ <;> simp [h]
            · simp [h]
      have hlow : ∀ (xs : List ℤ) (x : ℤ), ∀ y ∈ x :: xs, xs.foldl min x ≤ y := by
        intro xs
        induction xs with
        | nil => simp
        | cons y ys ih =>
            intro x z hz
            simp only [List.foldl_cons, List.mem_cons] at hz ⊢
            have h1 := ih (min x y) (min x y) (by simp)
            rcases hz with rfl | rfl | hz
            · exact h1.trans (min_le_left _ _)
            · exact h1.trans (min_le_right _ _)
            · exact ih (min x y) z (by simp [hz])
      have hupp : ∀ (xs : List ℤ) (x : ℤ), ∀ y ∈ x :: xs, y ≤ xs.foldl max x := by
        intro xs
        induction xs with
        | nil => simp
        | cons y ys ih =>
            intro x z hz
            simp only [List.foldl_cons, List.mem_cons] at hz ⊢
            have h1 := ih (max x y) (max x y) (by simp)
            rcases hz with rfl | rfl | hz
            · exact (le_max_left _ _).trans h1
            · exact (le_max_right _ _).trans h1
            · exact ih (max x y) z (by simp [hz])
      simp only [vlimsD, Option.some.injEq, Prod.mk.injEq]
      constructor
      · exact le_antisymm (hlow xs x lo ((hm lo).mpr ⟨le_refl _, hle⟩)) ((hm _).mp (hmin xs x)).1
      · exact le_antisymm ((hm _).mp (hmax xs x)).2 (hupp xs x hi ((hm hi).mpr ⟨hle, le_refl _⟩))

/-- Where the step `±d` leads from `x`. -/
def Spec.moved (lo hi : ℤ) (bound : Bool) (x d : ℤ) : ℤ :=
  if bound then (if x + d < lo then lo else if hi < x + d then hi else x + d) else x + d

theorem intStep_orand {vset : List ℤ} {lo hi : ℤ} (h : Spec.Whole vset lo hi) (d : ℤ) (bound : Bool)
    (x : ℤ) (ω : WDraw) :
    intStep vset (.orand d) bound x ω =
      .ok (Spec.moved lo hi bound x (if ω.u > 1/2 then d else -d)) := by
  have hle := h.1
  simp only [intStep, whole_vlims h, evalDeltaInt, intOrDefault, intDraw, bind, Except.bind, pure,
    Except.pure, reduceCtorEq, Bool.false_eq_true, and_false, if_false]
  generalize (if ω.u > 1/2 then d else -d) = e
  congr 1
  simp only [intApply, Spec.moved]
  split
  · split
    · omega
    · split <;> omega
  · rfl

/-- The mean over a uniform draw from `[0, 1)`. -/
noncomputable def Spec.mean (f : ℝ → ENNReal) : ENNReal := ∫⁻ x in Set.Ico 0 1, f x

/-- The probability that the chain in the state `l` is at `y` after `n` further steps, the
draws of each being independent and uniform. -/
noncomputable def Spec.visits (P : Proc Unit (Row ℤ) WDraw) : ℕ → OPQR (Row ℤ) → ℤ → ENNReal
  | 0, l, y => if l.p.map Row.val = some y then 1 else 0
  | n + 1, l, y => Spec.mean fun u => Spec.mean fun t =>
      Spec.visits P n ((nextCore P (some l) ⟨u, t, 0⟩ ()).2.1.getD l) y

theorem mean_split (p q : ENNReal) : Spec.mean (fun u => if u > 1/2 then p else q) = p / 2 + q / 2 := by
  have h1 : Set.Ico (0:ℝ) 1 = Set.Icc 0 (1/2) ∪ Set.Ioo (1/2) 1 := by
    ext x
    simp only [Set.mem_Ico, Set.mem_union, Set.mem_Icc, Set.mem_Ioo]
    constructor
    · rintro ⟨h, h'⟩
      rcases le_or_gt x (1/2) with hx | hx
      · exact .inl ⟨h, hx⟩
      · exact .inr ⟨hx, h'⟩
    · rintro (⟨h, h'⟩ | ⟨h, h'⟩)
      · exact ⟨h, by linarith⟩
      · exact ⟨by linarith, h'⟩
  have h2 : Disjoint (Set.Icc (0:ℝ) (1/2)) (Set.Ioo (1/2) 1) := by
    rw [Set.disjoint_left]
    rintro x ⟨_, h⟩ ⟨h', _⟩
    linarith
  rw [Spec.mean, h1, lintegral_union measurableSet_Ioo h2,
    setLIntegral_congr_fun (g := fun _ => q) measurableSet_Icc
      (fun x hx => by simp only [Set.mem_Icc] at hx; simp only [gt_iff_lt]; rw [if_neg (by linarith [hx.2])]),
    setLIntegral_congr_fun (g := fun _ => p) measurableSet_Ioo
      (fun x hx => by simp only [Set.mem_Ioo] at hx; simp only [gt_iff_lt]; rw [if_pos hx.1])]
  rw [setLIntegral_const, setLIntegral_const, Real.volume_Icc, Real.volume_Ioo, add_comm]
  have : ENNReal.ofReal (1/2) = 2⁻¹ := by
    rw [one_div, ENNReal.ofReal_inv_of_pos (by norm_num)]; norm_num
  rw [sub_zero, show (1:ℝ) - 1/2 = 1/2 by norm_num, this]
  simp [div_eq_mul_inv]

theorem mean_le (p q : ENNReal) (a : ℝ) (h0 : 0 ≤ a) (h1 : a ≤ 1) :
    Spec.mean (fun t => if t ≤ a then p else q) = ENNReal.ofReal a * p + ENNReal.ofReal (1 - a) * q := by
  have e1 : Set.Ico (0:ℝ) 1 = Set.Ico 0 a ∪ Set.Ico a 1 := (Set.Ico_union_Ico_eq_Ico h0 h1).symm
  have h2 : Disjoint (Set.Ico (0:ℝ) a) (Set.Ico a 1) := by
    rw [Set.disjoint_left]
    rintro x ⟨_, h⟩ ⟨h', _⟩
    linarith
  rw [Spec.mean, e1, lintegral_union measurableSet_Ico h2,
    setLIntegral_congr_fun (g := fun _ => p) measurableSet_Ico
      (fun x hx => if_pos hx.2.le)]
  have h3 : ∫⁻ t in Set.Ico a 1, (if t ≤ a then p else q) = ∫⁻ t in Set.Ioo a 1, q := by
    rw [setLIntegral_congr Ioo_ae_eq_Ico.symm]
    exact setLIntegral_congr_fun measurableSet_Ioo
      (fun x hx => if_neg (not_le.mpr hx.1))
  rw [h3, setLIntegral_const, setLIntegral_const, Real.volume_Ico, Real.volume_Ioo, sub_zero,
    mul_comm, mul_comm q]

/-- One step in the mean: half up, half down, accepted by the ratio. -/
noncomputable def after (w : ℤ → ℝ) (mv : ℤ → ℤ → ℤ) (d : ℤ) (f : ℤ → ℝ) (x : ℤ) : ℝ :=
  (Spec.ratio (w x) (w (mv x d)) * f (mv x d) + (1 - Spec.ratio (w x) (w (mv x d))) * f x) / 2 +
  (Spec.ratio (w x) (w (mv x (-d))) * f (mv x (-d)) + (1 - Spec.ratio (w x) (w (mv x (-d)))) * f x) / 2

theorem ratio_bounds (w w' : ℝ) (h : 0 ≤ w') : 0 ≤ Spec.ratio w w' ∧ Spec.ratio w w' ≤ 1 := by
  have := C35_score_bounds w w' h
  exact ⟨this.1, this.2.1⟩

theorem after_nonneg (w : ℤ → ℝ) (mv : ℤ → ℤ → ℤ) (d : ℤ) (f : ℤ → ℝ) (x : ℤ) (hw : ∀ x, 0 ≤ w x)
    (hf : ∀ x, 0 ≤ f x) : 0 ≤ after w mv d f x := by
  have h1 := ratio_bounds (w x) (w (mv x d)) (hw _)
  have h2 := ratio_bounds (w x) (w (mv x (-d))) (hw _)
  have := mul_nonneg h1.1 (hf (mv x d))
  have := mul_nonneg h2.1 (hf (mv x (-d)))
  have := mul_nonneg (sub_nonneg.mpr h1.2) (hf x)
  have := mul_nonneg (sub_nonneg.mpr h2.2) (hf x)
  unfold after
  linarith

/-- The chain of an integer variable with steps `±d`. -/
noncomputable def Spec.chain (vset : List ℤ) (delta : IntDelta) (bound : Bool) (prob : ℤ → ℝ) (tran : ℝ)
    (start : ℤ) (pscale : PSpec) : Proc Unit (Row ℤ) WDraw :=
  walkProc (intStep vset delta bound) prob tran start pscale WDraw.t

/-- Probabilities stored on a scale, as plain numbers `w`, none negative. -/
structure Spec.Stored {V : Type} (prob : V → ℝ) (pscale : PSpec) (w : V → ℝ) : Prop where
  scale : ∃ a, evalPscale pscale = .ok a ∧ Spec.Valid a ∧
    (∀ x, Spec.Unclamped (prob x) a (.lin 1)) ∧ ∀ x, Spec.value a (prob x) = w x
  nonneg : ∀ x, 0 ≤ w x

theorem stored_nonneg {V : Type} {prob : V → ℝ} {pscale : PSpec} {w : V → ℝ} (h : Spec.Stored prob pscale w)
    (x : V) : 0 ≤ w x :=
  h.nonneg x

theorem visits_eq {vset : List ℤ} {lo hi : ℤ} (hv : Spec.Whole vset lo hi) (d : ℤ) (bound : Bool)
    {prob : ℤ → ℝ} {pscale : PSpec} {w : ℤ → ℝ} (hst : Spec.Stored prob pscale w) (tran : ℝ) (start y : ℤ)
    (n : ℕ) : ∀ (l : OPQR (Row ℤ)) (x : ℤ), Spec.At prob l x →
      (0 ≤ ((after w (Spec.moved lo hi bound) d)^[n] fun z => if z = y then 1 else 0) x) ∧
      Spec.visits (Spec.chain vset (.orand d) bound prob tran start pscale) n l y =
        ENNReal.ofReal (((after w (Spec.moved lo hi bound) d)^[n] fun z => if z = y then 1 else 0) x) := by
  obtain ⟨a, hs, ha, hu, hw⟩ := hst.scale
  have hnn := stored_nonneg hst
  have hpos : ∀ n x, 0 ≤ ((after w (Spec.moved lo hi bound) d)^[n] fun z => if z = y then 1 else 0) x := by
    intro n
    induction n with
    | zero => intro x; simp only [Function.iterate_zero, id]; split <;> norm_num
    | succ n ih => intro x; rw [Function.iterate_succ_apply']; exact after_nonneg _ _ _ _ _ hnn ih
  induction n with
  | zero =>
      intro l x hl
      refine ⟨hpos 0 x, ?_⟩
      simp only [Spec.visits, Function.iterate_zero, id, hl.1, Option.map_some, Option.some.injEq]
      split <;> simp
  | succ n ih =>
      intro l x hl
      refine ⟨hpos _ x, ?_⟩
      rw [Function.iterate_succ_apply']
      set f := (after w (Spec.moved lo hi bound) d)^[n] fun z => if z = y then 1 else 0 with hf
      have hstep : ∀ u t, Spec.visits (Spec.chain vset (.orand d) bound prob tran start pscale) n
          ((nextCore (Spec.chain vset (.orand d) bound prob tran start pscale) (some l) ⟨u, t, 0⟩ ()).2.1.getD l) y =
          if t ≤ Spec.ratio (w x) (w (Spec.moved lo hi bound x (if u > 1/2 then d else -d)))
          then ENNReal.ofReal (f (Spec.moved lo hi bound x (if u > 1/2 then d else -d)))
          else ENNReal.ofReal (f x) := by
        intro u t
        obtain ⟨l', smp, h1, h2, h3⟩ := C82_step (intStep vset (.orand d) bound) prob tran start pscale a hs ha
          hu WDraw.t l x _ ⟨u, t, 0⟩ hl (intStep_orand hv d bound x ⟨u, t, 0⟩)
        rw [hw, hw] at h2 h3
        unfold Spec.chain
        rw [h1]
        simp only [Option.getD_some]
        by_cases ht : t ≤ Spec.ratio (w x) (w (Spec.moved lo hi bound x (if u > 1/2 then d else -d)))
        · rw [if_pos ht]
          exact (ih l' _ (h2 ht).1).2
        · rw [if_neg ht, (h3 ht).1]
          exact (ih l x hl).2
      have hin : ∀ e, Spec.mean (fun t => if t ≤ Spec.ratio (w x) (w (Spec.moved lo hi bound x e))
          then ENNReal.ofReal (f (Spec.moved lo hi bound x e)) else ENNReal.ofReal (f x)) =
          ENNReal.ofReal (Spec.ratio (w x) (w (Spec.moved lo hi bound x e)) * f (Spec.moved lo hi bound x e) +
            (1 - Spec.ratio (w x) (w (Spec.moved lo hi bound x e))) * f x) := by
        intro e
        obtain ⟨r0, r1⟩ := ratio_bounds (w x) (w (Spec.moved lo hi bound x e)) (hnn _)
        rw [mean_le _ _ _ r0 r1, ← ENNReal.ofReal_mul r0, ← ENNReal.ofReal_mul (sub_nonneg.mpr r1),
          ← ENNReal.ofReal_add (mul_nonneg r0 (hpos _ _)) (mul_nonneg (sub_nonneg.mpr r1) (hpos _ _))]
      simp only [Spec.visits, hstep, hin]
      have hout : (fun u : ℝ => ENNReal.ofReal
          (Spec.ratio (w x) (w (Spec.moved lo hi bound x (if u > 1/2 then d else -d))) *
            f (Spec.moved lo hi bound x (if u > 1/2 then d else -d)) +
          (1 - Spec.ratio (w x) (w (Spec.moved lo hi bound x (if u > 1/2 then d else -d)))) * f x)) =
          fun u => if u > 1/2 then ENNReal.ofReal
            (Spec.ratio (w x) (w (Spec.moved lo hi bound x d)) * f (Spec.moved lo hi bound x d) +
            (1 - Spec.ratio (w x) (w (Spec.moved lo hi bound x d))) * f x)
          else ENNReal.ofReal
            (Spec.ratio (w x) (w (Spec.moved lo hi bound x (-d))) * f (Spec.moved lo hi bound x (-d)) +
            (1 - Spec.ratio (w x) (w (Spec.moved lo hi bound x (-d)))) * f x) := by
        funext u
        by_cases hu : u > 1/2
        · simp only [if_pos hu]
        · simp only [if_neg hu]
      rw [hout, mean_split]
      have hp : ∀ e, 0 ≤ Spec.ratio (w x) (w (Spec.moved lo hi bound x e)) * f (Spec.moved lo hi bound x e) +
            (1 - Spec.ratio (w x) (w (Spec.moved lo hi bound x e))) * f x := by
        intro e
        obtain ⟨r0, r1⟩ := ratio_bounds (w x) (w (Spec.moved lo hi bound x e)) (hnn _)
        exact add_nonneg (mul_nonneg r0 (hpos _ _)) (mul_nonneg (sub_nonneg.mpr r1) (hpos _ _))
      have h2 : ∀ z : ℝ, 0 ≤ z → ENNReal.ofReal z / 2 = ENNReal.ofReal (z / 2) := by
        intro z hz
        rw [ENNReal.ofReal_div_of_pos (by norm_num)]
        norm_num
      rw [h2 _ (hp _), h2 _ (hp _), ← ENNReal.ofReal_add (by linarith [hp d]) (by linarith [hp (-d)])]
      rfl

/-- Moves that are as likely one way as the other keep weighted sums. -/
theorem after_sum (S : Finset ℤ) (w : ℤ → ℝ) (mv : ℤ → ℤ → ℤ) (d : ℤ) (f : ℤ → ℝ)
    (hn : ∀ x, 0 ≤ w x)
    (hin : ∀ x ∈ S, ∀ e, e = d ∨ e = -d → mv x e ∈ S ∨ w (mv x e) = 0)
    (hsym : ∀ x ∈ S, ∀ y ∈ S, x ≠ y → 
      ((if mv x d = y then (1:ℝ) else 0) + (if mv x (-d) = y then 1 else 0) =
        (if mv y d = x then (1:ℝ) else 0) + (if mv y (-d) = x then 1 else 0))) :
    ∑ x ∈ S, w x * after w mv d f x = ∑ x ∈ S, w x * f x := by
  have hbal : ∀ x y, w x * Spec.ratio (w x) (w y) = w y * Spec.ratio (w y) (w x) := by
    intro x y
    have := C35_detailed_balance (w x) (w y) 1 (hn x) (hn y)
    simpa [Spec.ratio] using this
  have hzero : ∀ x y, w y = 0 → Spec.ratio (w x) (w y) = 0 := by
    intro x y h
    simp [Spec.ratio, h]
  have hterm : ∀ x ∈ S, ∀ e, e = d ∨ e = -d →
      w x * (Spec.ratio (w x) (w (mv x e)) * (f (mv x e) - f x)) =
      ∑ y ∈ S, (if mv x e = y then (1:ℝ) else 0) * (w x * Spec.ratio (w x) (w y) * (f y - f x)) := by
    intro x hx e he
    simp only [ite_mul, one_mul, zero_mul]
    rw [Finset.sum_ite_eq]
    split
    · ring
    · rename_i h
      rcases hin x hx e he with h' | h'
      · exact absurd h' h
      · rw [hzero _ _ h']; ring
  have hsplit : ∀ x, w x * after w mv d f x = w x * f x +
      (w x * (Spec.ratio (w x) (w (mv x d)) * (f (mv x d) - f x)) +
        w x * (Spec.ratio (w x) (w (mv x (-d))) * (f (mv x (-d)) - f x))) / 2 := by
    intro x
    unfold after
    ring
  have hq : ∀ x ∈ S, ∀ y ∈ S, x ≠ y →
      ((if mv x d = y then (1:ℝ) else 0) + (if mv x (-d) = y then 1 else 0) =
        (if mv y d = x then (1:ℝ) else 0) + (if mv y (-d) = x then 1 else 0)) := by
    exact hsym
  rw [Finset.sum_congr rfl fun x _ => hsplit x, Finset.sum_add_distrib, add_eq_left,
    ← Finset.sum_div, Finset.sum_congr rfl fun x hx => by
      rw [hterm x hx d (.inl rfl), hterm x hx (-d) (.inr rfl), ← Finset.sum_add_distrib]]
  have hanti : ∑ x ∈ S, ∑ y ∈ S, ((if mv x d = y then (1:ℝ) else 0) * (w x * Spec.ratio (w x) (w y) * (f y - f x)) +
      (if mv x (-d) = y then 1 else 0) * (w x * Spec.ratio (w x) (w y) * (f y - f x))) =
      - ∑ x ∈ S, ∑ y ∈ S, ((if mv x d = y then (1:ℝ) else 0) * (w x * Spec.ratio (w x) (w y) * (f y - f x)) +
      (if mv x (-d) = y then 1 else 0) * (w x * Spec.ratio (w x) (w y) * (f y - f x))) := by
    conv_rhs => rw [Finset.sum_comm]
    rw [← Finset.sum_neg_distrib]
    refine Finset.sum_congr rfl fun x hx => ?_
    rw [← Finset.sum_neg_distrib]
    refine Finset.sum_congr rfl fun y hy => ?_
    by_cases hxy : x = y
    · subst hxy; simp
    · rw [← add_mul, ← add_mul, hq x hx y hy hxy, hbal x y]
      ring
  have : ∑ x ∈ S, ∑ y ∈ S, ((if mv x d = y then (1:ℝ) else 0) * (w x * Spec.ratio (w x) (w y) * (f y - f x)) +
      (if mv x (-d) = y then 1 else 0) * (w x * Spec.ratio (w x) (w y) * (f y - f x))) = 0 := by
    linarith
  rw [this, zero_div]

/-! ### The target is kept -/

theorem iterate_sum (S : Finset ℤ) (w : ℤ → ℝ) (mv : ℤ → ℤ → ℤ) (d : ℤ)
    (hn : ∀ x, 0 ≤ w x)
    (hin : ∀ x ∈ S, ∀ e, e = d ∨ e = -d → mv x e ∈ S ∨ w (mv x e) = 0)
    (hsym : ∀ x ∈ S, ∀ y ∈ S, x ≠ y →
      ((if mv x d = y then (1:ℝ) else 0) + (if mv x (-d) = y then 1 else 0) =
        (if mv y d = x then (1:ℝ) else 0) + (if mv y (-d) = x then 1 else 0)))
    (y : ℤ) (hy : y ∈ S) (n : ℕ) :
    ∑ x ∈ S, w x * ((after w mv d)^[n] fun z => if z = y then 1 else 0) x = w y := by
  induction n with
  | zero => simp [hy]
  | succ n ih =>
      rw [← ih]
      simp only [Function.iterate_succ_apply']
      exact after_sum S w mv d _ hn hin hsym

theorem visits_sum {vset : List ℤ} {lo hi : ℤ} (hv : Spec.Whole vset lo hi) (d : ℤ) (bound : Bool)
    {prob : ℤ → ℝ} {pscale : PSpec} {w : ℤ → ℝ} (hst : Spec.Stored prob pscale w) (tran : ℝ) (start y : ℤ)
    (n : ℕ) (l : ℤ → OPQR (Row ℤ)) (hl : ∀ x, Spec.At prob (l x) x) :
    ∑ x ∈ Finset.Icc lo hi, ENNReal.ofReal (w x) *
        Spec.visits (Spec.chain vset (.orand d) bound prob tran start pscale) n (l x) y =
      ENNReal.ofReal (∑ x ∈ Finset.Icc lo hi,
        w x * ((after w (Spec.moved lo hi bound) d)^[n] fun z => if z = y then 1 else 0) x) := by
  rw [ENNReal.ofReal_sum_of_nonneg]
  · refine Finset.sum_congr rfl fun x _ => ?_
    rw [(visits_eq hv d bound hst tran start y n (l x) x (hl x)).2, ENNReal.ofReal_mul (stored_nonneg hst x)]
  · exact fun x _ => mul_nonneg (stored_nonneg hst x) (visits_eq hv d bound hst tran start y n (l x) x (hl x)).1

/-- The target `w` on the integers from `lo` to `hi` is kept by the chain: started at `x` with
probability (proportional to) `w x`, it is at `y` after any number of steps with
probability `w y`. -/
def Spec.KeepsTarget (P : Proc Unit (Row ℤ) WDraw) (prob : ℤ → ℝ) (w : ℤ → ℝ) (lo hi : ℤ) : Prop :=
  ∀ (l : ℤ → OPQR (Row ℤ)), (∀ x, Spec.At prob (l x) x) → ∀ n, ∀ y, lo ≤ y → y ≤ hi →
    ∑ x ∈ Finset.Icc lo hi, ENNReal.ofReal (w x) * Spec.visits P n (l x) y = ENNReal.ofReal (w y)

/-- C82: with steps of random sign within the limits of the variable, a Metropolis chain
keeps the target. -/
def C82_claim : Prop :=
  ∀ (vset : List ℤ) (lo hi d : ℤ) (prob : ℤ → ℝ) (pscale : PSpec) (w : ℤ → ℝ) (tran : ℝ) (start : ℤ),
    Spec.Whole vset lo hi → 0 < d → Spec.Stored prob pscale w →
    Spec.KeepsTarget (Spec.chain vset (.orand d) true prob tran start pscale) prob w lo hi

/-- C82, for steps of one or sets of at most two values. -/
theorem C82_partial (vset : List ℤ) (lo hi d : ℤ) (prob : ℤ → ℝ) (pscale : PSpec) (w : ℤ → ℝ) (tran : ℝ)
    (start : ℤ) (hv : Spec.Whole vset lo hi) (hd : 0 < d) (hst : Spec.Stored prob pscale w)
    (h1 : d = 1 ∨ hi - lo ≤ 1) :
    Spec.KeepsTarget (Spec.chain vset (.orand d) true prob tran start pscale) prob w lo hi := by
  intro l hl n y hy1 hy2
  have hle := hv.1
  rw [visits_sum hv d true hst tran start y n l hl]
  congr 1
  refine iterate_sum _ w _ d hst.nonneg ?_ ?_ y (Finset.mem_Icc.mpr ⟨hy1, hy2⟩) n
  · intro x hx e _
    left
    rw [Finset.mem_Icc] at hx ⊢
    simp only [Spec.moved, if_true]
    split
    · omega
    · split <;> omega
  · intro x hx y hy hne
    rw [Finset.mem_Icc] at hx hy
    have e1 : (Spec.moved lo hi true x d = y ↔ Spec.moved lo hi true y (-d) = x) := by
      simp only [Spec.moved, if_true]
      split_ifs <;> omega
    have e2 : (Spec.moved lo hi true x (-d) = y ↔ Spec.moved lo hi true y d = x) := by
      simp only [Spec.moved, if_true]
      split_ifs <;> omega
    simp only [e1, e2]
    ring

/-- C82: without bounds, steps of any size, the target being zero outside the set. -/
theorem C82_unbounded (vset : List ℤ) (lo hi d : ℤ) (prob : ℤ → ℝ) (pscale : PSpec) (w : ℤ → ℝ) (tran : ℝ)
    (start : ℤ) (hv : Spec.Whole vset lo hi) (hst : Spec.Stored prob pscale w)
    (h0 : ∀ x, x ∉ vset → w x = 0) :
    Spec.KeepsTarget (Spec.chain vset (.orand d) false prob tran start pscale) prob w lo hi := by
  intro l hl n y hy1 hy2
  rw [visits_sum hv d false hst tran start y n l hl]
  congr 1
  refine iterate_sum _ w _ d hst.nonneg ?_ ?_ y (Finset.mem_Icc.mpr ⟨hy1, hy2⟩) n
  · intro x hx e _
    by_cases h : Spec.moved lo hi false x e ∈ vset
    · exact .inl (Finset.mem_Icc.mpr ((hv.2 _).mp h))
    · exact .inr (h0 _ h)
  · intro x hx y hy hne
    have e1 : (Spec.moved lo hi false x d = y ↔ Spec.moved lo hi false y (-d) = x) := by
      simp only [Spec.moved, Bool.false_eq_true, if_false]; omega
    have e2 : (Spec.moved lo hi false x (-d) = y ↔ Spec.moved lo hi false y d = x) := by
      simp only [Spec.moved, Bool.false_eq_true, if_false]; omega
    simp only [e1, e2]
    ring

/-- The flat target is kept by bounded steps only in the cases of `C82_partial`: larger steps
collect at the limits. -/
theorem C82_flat_iff (vset : List ℤ) (lo hi d : ℤ) (prob : ℤ → ℝ) (pscale : PSpec) (w : ℤ → ℝ) (tran : ℝ)
    (start : ℤ) (hv : Spec.Whole vset lo hi) (hd : 0 < d) (hst : Spec.Stored prob pscale w)
    (c : ℝ) (hc : npz ≤ c) (hw : ∀ x, w x = c) :
    Spec.KeepsTarget (Spec.chain vset (.orand d) true prob tran start pscale) prob w lo hi ↔
      d = 1 ∨ hi - lo ≤ 1 := by
  refine ⟨fun h => ?_, C82_partial vset lo hi d prob pscale w tran start hv hd hst⟩
  by_contra hcon
  push Not at hcon
  obtain ⟨hd1, hlh⟩ := hcon
  have hc0 : 0 < c := npz_pos.trans_le hc
  have hat : ∀ x, Spec.At prob ⟨none, some ⟨x, .scalar (prob x)⟩, some ⟨x, .scalar tran⟩, none⟩ x :=
    fun x => ⟨rfl, _, rfl⟩
  have h1 := h _ hat 1 lo (le_refl _) hv.1
  rw [visits_sum hv d true hst tran start lo 1 _ hat] at h1
  rw [ENNReal.ofReal_eq_ofReal_iff
    (Finset.sum_nonneg fun x _ => mul_nonneg (stored_nonneg hst x)
      (visits_eq hv d true hst tran start lo 1 _ x (hat x)).1) (stored_nonneg hst lo)] at h1
  have hr : Spec.ratio c c = 1 := by
    rw [Spec.ratio, max_eq_right hc, div_self hc0.ne']; simp
  simp only [Function.iterate_one, after, hw, hr, one_mul, sub_self, zero_mul, add_zero] at h1
  have hterm : ∀ x ∈ Finset.Icc lo hi, 0 ≤ c * ((if Spec.moved lo hi true x d = lo then (1:ℝ) else 0) / 2 +
      (if Spec.moved lo hi true x (-d) = lo then 1 else 0) / 2) := by
    intro x _
    split <;> split <;> positivity
  have hsub : ({lo, lo + 1, lo + 2} : Finset ℤ) ⊆ Finset.Icc lo hi := by
    intro x hx
    simp only [Finset.mem_insert, Finset.mem_singleton] at hx
    rw [Finset.mem_Icc]
    omega
  have hge := Finset.sum_le_sum_of_subset_of_nonneg hsub (fun x hx _ => hterm x hx)
  rw [h1] at hge
  have hthree : ∀ x ∈ ({lo, lo + 1, lo + 2} : Finset ℤ), c / 2 ≤
      c * ((if Spec.moved lo hi true x d = lo then (1:ℝ) else 0) / 2 +
      (if Spec.moved lo hi true x (-d) = lo then 1 else 0) / 2) := by
    intro x hx
    simp only [Finset.mem_insert, Finset.mem_singleton] at hx
    have : Spec.moved lo hi true x (-d) = lo := by
      simp only [Spec.moved, if_true]
      split_ifs <;> omega
    rw [if_pos this]
    split
    · nlinarith
    · linarith
  have hcard : ({lo, lo + 1, lo + 2} : Finset ℤ).card = 3 := by
    rw [Finset.card_insert_of_notMem (by simp), Finset.card_insert_of_notMem (by simp), Finset.card_singleton]
  have hsum := Finset.card_nsmul_le_sum _ _ _ hthree
  rw [hcard, nsmul_eq_mul] at hsum
  have : ((3 : ℕ) : ℝ) * (c / 2) ≤ c := hsum.trans hge
  push_cast at this
  linarith

theorem one_stored {V : Type} : Spec.Stored (fun _ : V => 1) (.flt 1) (fun _ => 1) :=
  ⟨⟨.lin 1, by simp [evalPscale], by simp [Spec.Valid], fun _ => trivial, fun _ => by simp [Spec.value]⟩,
    fun _ => zero_le_one⟩

/-- C82 fails: with steps of two on {0, 1, 2}, the value 1 is left and never reached again. -/
theorem C82_claim_fails : ¬ C82_claim := by
  intro h
  have hw : Spec.Whole [0, 1, 2] 0 2 := ⟨by norm_num, fun z => by simp; omega⟩
  have := (C82_flat_iff [0, 1, 2] 0 2 2 (fun _ => 1) (.flt 1) (fun _ => 1) 1 0 hw (by norm_num) one_stored 1
    npz_lt_one.le fun _ => rfl).mp (h _ _ _ _ _ _ _ _ _ hw (by norm_num) one_stored)
  omega

/-! ### Which values are reached -/

/-- C82: with steps of one and positive probabilities, every value of the set is reached from
every other, with positive probability in as many steps as they are apart. -/
theorem C82_reached (vset : List ℤ) (lo hi : ℤ) (bound : Bool) (prob : ℤ → ℝ) (pscale : PSpec) (w : ℤ → ℝ)
    (tran : ℝ) (start : ℤ) (hv : Spec.Whole vset lo hi) (hst : Spec.Stored prob pscale w)
    (hpos : ∀ x ∈ vset, 0 < w x) (l : OPQR (Row ℤ)) (x y : ℤ) (hl : Spec.At prob l x) (hx : x ∈ vset)
    (hy : y ∈ vset) :
    0 < Spec.visits (Spec.chain vset (.orand 1) bound prob tran start pscale) (x - y).natAbs l y := by
  rw [(visits_eq hv 1 bound hst tran start y _ l x hl).2, ENNReal.ofReal_pos]
  have hnn := stored_nonneg hst
  have hf0 : ∀ n x, 0 ≤ ((after w (Spec.moved lo hi bound) 1)^[n] fun z => if z = y then 1 else 0) x := by
    intro n
    induction n with
    | zero => intro x; simp only [Function.iterate_zero, id]; split <;> norm_num
    | succ n ih => intro x; rw [Function.iterate_succ_apply']; exact after_nonneg _ _ _ _ _ hnn ih
  clear hl
  generalize hn : (x - y).natAbs = n
  induction n generalizing x with
  | zero =>
      have : x = y := by omega
      simp [this]
  | succ n ih =>
      rw [Function.iterate_succ_apply']
      have hx' := (hv.2 x).mp hx
      have hy' := (hv.2 y).mp hy
      have hr : ∀ z ∈ vset, 0 < Spec.ratio (w x) (w z) := by
        intro z hz
        exact lt_min one_pos (div_pos (hpos z hz) (npz_pos.trans_le (le_max_left _ _)))
      have h1 := ratio_bounds (w x) (w (Spec.moved lo hi bound x 1)) (hnn _)
      have h2 := ratio_bounds (w x) (w (Spec.moved lo hi bound x (-1))) (hnn _)
      have a1 := mul_nonneg h1.1 (hf0 n (Spec.moved lo hi bound x 1))
      have a2 := mul_nonneg h2.1 (hf0 n (Spec.moved lo hi bound x (-1)))
      have a3 := mul_nonneg (sub_nonneg.mpr h1.2) (hf0 n x)
      have a4 := mul_nonneg (sub_nonneg.mpr h2.2) (hf0 n x)
      rcases lt_or_gt_of_ne (show x ≠ y by intro h; rw [h] at hn; simp at hn) with hlt | hlt
      · have hm : Spec.moved lo hi bound x 1 = x + 1 := by
          unfold Spec.moved; split_ifs <;> omega
        have hin : x + 1 ∈ vset := (hv.2 _).mpr ⟨by omega, by omega⟩
        have := mul_pos (hr _ hin) (ih (x + 1) hin (by omega))
        rw [hm] at a1 a3
        generalize ((after w (Spec.moved lo hi bound) 1)^[n] fun z => if z = y then 1 else 0) = g at *
        unfold after
        rw [hm]
        linarith
      · have hm : Spec.moved lo hi bound x (-1) = x - 1 := by
          unfold Spec.moved; split_ifs <;> omega
        have hin : x - 1 ∈ vset := (hv.2 _).mpr ⟨by omega, by omega⟩
        have := mul_pos (hr _ hin) (ih (x - 1) hin (by omega))
        rw [hm] at a2 a4
        generalize ((after w (Spec.moved lo hi bound) 1)^[n] fun z => if z = y then 1 else 0) = g at *
        unfold after
        rw [hm]
        linarith

/-- The chain goes from state `l` to `l'` with these draws, one step each. -/
inductive Spec.Goes (P : Proc Unit (Row ℤ) WDraw) : OPQR (Row ℤ) → List WDraw → OPQR (Row ℤ) → Prop
  | here (l) : Spec.Goes P l [] l
  | on (l l' l'' ω ωs smp) : nextCore P (some l) ω () = ((), some l', .ok (.sample smp)) →
      Spec.Goes P l' ωs l'' → Spec.Goes P l (ω :: ωs) l''

/-- Draws that may occur: from `[0, 1)` and the integers from `-d` to `d - 1`
(`np.random.randint(-d, d)`). -/
def Spec.Drawn (d : ℤ) (ω : WDraw) : Prop := 0 ≤ ω.u ∧ ω.u < 1 ∧ 0 ≤ ω.t ∧ ω.t < 1 ∧ -d ≤ ω.r ∧ ω.r < d

theorem goes_invariant {step : ℤ → WDraw → Py ℤ} {prob : ℤ → ℝ} {tran : ℝ} {start : ℤ} {pscale : PSpec}
    {w : ℤ → ℝ} (hst : Spec.Stored prob pscale w) (R : ℤ → Prop) (ok : WDraw → Prop)
    (hR : ∀ x, R x → ∀ ω, ok ω → ∃ y, step x ω = .ok y ∧ R y) {l l' : OPQR (Row ℤ)} {ωs : List WDraw}
    (hg : Spec.Goes (walkProc step prob tran start pscale WDraw.t) l ωs l') :
    (∀ ω ∈ ωs, ok ω) → (∃ x, Spec.At prob l x ∧ R x) → ∃ y, Spec.At prob l' y ∧ R y := by
  obtain ⟨a, hs, ha, hu, hw⟩ := hst.scale
  induction hg with
  | here l => exact fun _ h => h
  | on l l1 l2 ω ωs smp h1 _ ih =>
      rintro hok ⟨x, hx, hRx⟩
      obtain ⟨y, hy, hRy⟩ := hR x hRx ω (hok ω (by simp))
      obtain ⟨m, s, e1, e2, e3⟩ := C82_step step prob tran start pscale a hs ha hu WDraw.t l x y ω hx hy
      have hm : l1 = m := by
        rw [e1] at h1
        simp only [Prod.mk.injEq, Option.some.injEq] at h1
        exact h1.2.1.symm
      refine ih (fun ω hω => hok ω (by simp [hω])) ?_
      rw [hm]
      by_cases ht : ω.t ≤ Spec.ratio (Spec.value a (prob x)) (Spec.value a (prob y))
      · exact ⟨y, (e2 ht).1, hRy⟩
      · rw [(e3 ht).1]
        exact ⟨x, hx, hRx⟩

theorem at_unique {prob : ℤ → ℝ} {l : OPQR (Row ℤ)} {x y : ℤ} (hx : Spec.At prob l x) (hy : Spec.At prob l y) :
    x = y := by
  have := hx.1.symm.trans hy.1
  simp only [Option.some.injEq, Row.mk.injEq] at this
  exact this.1

/-- C82: bounded chains, from values of the set, stay in it, whatever is drawn. -/
theorem C82_stays (vset : List ℤ) (lo hi d : ℤ) (prob : ℤ → ℝ) (pscale : PSpec) (w : ℤ → ℝ) (tran : ℝ)
    (start : ℤ) (hv : Spec.Whole vset lo hi) (hst : Spec.Stored prob pscale w) (l l' : OPQR (Row ℤ))
    (ωs : List WDraw) (x y : ℤ)
    (hg : Spec.Goes (Spec.chain vset (.orand d) true prob tran start pscale) l ωs l')
    (hx : Spec.At prob l x) (hxs : x ∈ vset) (hy : Spec.At prob l' y) : y ∈ vset := by
  obtain ⟨z, hz, hzR⟩ := goes_invariant hst (· ∈ vset) (fun _ => True)
    (fun x hx ω _ => ⟨_, intStep_orand hv d true x ω, by
      have := (hv.2 x).mp hx
      rw [hv.2]
      simp only [Spec.moved, if_true]
      generalize (if ω.u > 1/2 then d else -d) = e
      split_ifs <;> omega⟩) hg (fun _ _ => trivial) ⟨x, hx, hxs⟩
  rw [at_unique hy hz]
  exact hzR

/-- C82: without bounds, steps of `d` lead to values a multiple of `d` apart only. -/
theorem C82_congruent (vset : List ℤ) (lo hi d : ℤ) (prob : ℤ → ℝ) (pscale : PSpec) (w : ℤ → ℝ) (tran : ℝ)
    (start : ℤ) (hv : Spec.Whole vset lo hi) (hst : Spec.Stored prob pscale w) (l l' : OPQR (Row ℤ))
    (ωs : List WDraw) (x y : ℤ)
    (hg : Spec.Goes (Spec.chain vset (.orand d) false prob tran start pscale) l ωs l')
    (hx : Spec.At prob l x) (hy : Spec.At prob l' y) : d ∣ y - x := by
  obtain ⟨z, hz, hzR⟩ := goes_invariant hst (d ∣ · - x) (fun _ => True)
    (fun v hv' ω _ => ⟨_, intStep_orand hv d false v ω, by
      have h2 : d ∣ (if ω.u > 1/2 then d else -d) := by split <;> simp
      have := dvd_add hv' h2
      simpa [Spec.moved, sub_add_eq_add_sub] using this⟩) hg (fun _ _ => trivial) ⟨x, hx, by simp⟩
  rw [at_unique hy hz]
  exact hzR

/-- C82: steps `[1]`, uniform between -1 and 1, reach all values. -/
def C82_list_claim : Prop :=
  ∀ (vset : List ℤ) (lo hi : ℤ) (bound : Bool) (prob : ℤ → ℝ) (pscale : PSpec) (w : ℤ → ℝ) (tran : ℝ)
    (start : ℤ), Spec.Whole vset lo hi → Spec.Stored prob pscale w → (∀ x ∈ vset, 0 < w x) →
    ∀ x ∈ vset, ∀ y ∈ vset, ∃ l ωs l', (∀ ω ∈ ωs, Spec.Drawn 1 ω) ∧ Spec.At prob l x ∧
      Spec.Goes (Spec.chain vset (.urand 1) bound prob tran start pscale) l ωs l' ∧ Spec.At prob l' y

/-- What they do: never go up. -/
theorem C82_list_never_up (vset : List ℤ) (lo hi : ℤ) (bound : Bool) (prob : ℤ → ℝ) (pscale : PSpec)
    (w : ℤ → ℝ) (tran : ℝ) (start : ℤ) (hv : Spec.Whole vset lo hi) (hst : Spec.Stored prob pscale w)
    (l l' : OPQR (Row ℤ)) (ωs : List WDraw) (x y : ℤ) (hd : ∀ ω ∈ ωs, Spec.Drawn 1 ω)
    (hg : Spec.Goes (Spec.chain vset (.urand 1) bound prob tran start pscale) l ωs l')
    (hx : Spec.At prob l x) (hxs : x ∈ vset) (hy : Spec.At prob l' y) : y ≤ x := by
  have hx' := (hv.2 x).mp hxs
  obtain ⟨z, hz, hzR⟩ := goes_invariant hst (· ≤ x) (Spec.Drawn 1)
    (fun v hv' ω hω => ⟨intApply lo hi v ω.r bound, by
        simp [intStep, whole_vlims hv, evalDeltaInt, intOrDefault, intDraw, randint, bind, Except.bind, pure,
          Except.pure], by
        have := hω.2.2.2.2.2
        simp only [intApply]
        split <;> omega⟩) hg hd ⟨x, hx, le_refl _⟩
  rw [at_unique hy hz]
  exact hzR

/-- C82 fails for `[1]`: from 0 one never gets to 1. -/
theorem C82_list_claim_fails : ¬ C82_list_claim := by
  intro h
  have hw : Spec.Whole [0, 1] 0 1 := ⟨by norm_num, fun z => by simp; omega⟩
  obtain ⟨l, ωs, l', h1, h2, h3, h4⟩ := h [0, 1] 0 1 true (fun _ => 1) (.flt 1) (fun _ => 1) 1 0 hw one_stored
    (fun _ _ => one_pos) 0 (by simp) 1 (by simp)
  have := C82_list_never_up [0, 1] 0 1 true (fun _ => 1) (.flt 1) (fun _ => 1) 1 0 hw one_stored l l' ωs 0 1 h1 h3
    h2 (by simp) h4
  norm_num at this

/-! ### Cases of the hypotheses -/

/-- Probabilities `1/2, 1/4, 1/4` of three values, stored as 2, 1, 1 on scale 1/4. -/
noncomputable def threeValues : ℤ → ℝ := fun x => if x = 0 then 2 else if x = 1 ∨ x = 2 then 1 else 0

theorem threeValues_stored : Spec.Stored threeValues (.flt (1/4)) (fun x => threeValues x / 4) := by
  refine ⟨⟨.lin (1/4), by simp [evalPscale], by simp [Spec.Valid], fun _ => trivial, fun x => ?_⟩, fun x => ?_⟩
  · simp only [Spec.value]; ring
  · unfold threeValues
    split
    · norm_num
    · split <;> norm_num

example : Spec.KeepsTarget (Spec.chain [2, 0, 1] (.orand 1) true threeValues 1 0 (.flt (1/4))) threeValues
    (fun x => threeValues x / 4) 0 2 :=
  C82_partial _ _ _ _ _ _ _ _ _ ⟨by norm_num, fun z => by simp; omega⟩ one_pos threeValues_stored (.inl rfl)

example : Spec.KeepsTarget (Spec.chain [2, 0, 1] (.orand 2) false threeValues 1 0 (.flt (1/4))) threeValues
    (fun x => threeValues x / 4) 0 2 :=
  C82_unbounded _ _ _ _ _ _ _ _ _ ⟨by norm_num, fun z => by simp; omega⟩ threeValues_stored
    (fun x hx => by
      simp only [List.mem_cons, List.not_mem_nil, or_false, not_or] at hx
      simp [threeValues, hx])

example (l : OPQR (Row ℤ)) (hl : Spec.At threeValues l 2) :
    0 < Spec.visits (Spec.chain [2, 0, 1] (.orand 1) true threeValues 1 0 (.flt (1/4))) 2 l 0 :=
  C82_reached [2, 0, 1] 0 2 true threeValues (.flt (1/4)) _ 1 0 ⟨by norm_num, fun z => by simp; omega⟩
    threeValues_stored (by
      intro x hx
      simp only [List.mem_cons, List.not_mem_nil, or_false] at hx
      rcases hx with rfl | rfl | rfl <;> simp [threeValues]) l 2 0 hl (by simp) (by simp)

/-- Two steps, the first accepted, the second rejected: from 0 to 1, not back to 0. -/
example : ∃ l l', Spec.At (fun x : ℤ => if x = 0 then 1 else (2 : ℝ)) l 0 ∧
    Spec.Goes (Spec.chain [0, 1] (.orand 1) true (fun x : ℤ => if x = 0 then 1 else (2 : ℝ)) 1 0 (.flt 1)) l
      [⟨3/4, 1/2, 0⟩, ⟨1/4, 3/4, 0⟩] l' ∧ Spec.At (fun x : ℤ => if x = 0 then 1 else (2 : ℝ)) l' 1 := by
  have hv : Spec.Whole [0, 1] 0 1 := ⟨by norm_num, fun z => by simp; omega⟩
  have hs : ∀ x : ℤ, Spec.Unclamped (if x = 0 then 1 else (2 : ℝ)) (.lin 1) (.lin 1) := fun _ => trivial
  obtain ⟨l1, s1, a1, b1, -⟩ := C82_step (intStep [0, 1] (.orand 1) true) (fun x : ℤ => if x = 0 then 1 else (2 : ℝ))
    1 0 (.flt 1) (.lin 1) (by simp [evalPscale]) one_pos hs WDraw.t
    ⟨none, some ⟨0, .scalar 1⟩, some ⟨0, .scalar 1⟩, none⟩ 0 1 ⟨3/4, 1/2, 0⟩ ⟨rfl, _, rfl⟩
    (by rw [intStep_orand hv]; norm_num [Spec.moved])
  have hm : max npz 1 = 1 := max_eq_right npz_lt_one.le
  have hm2 : max npz 2 = 2 := max_eq_right (by linarith [npz_lt_one])
  obtain ⟨l2, s2, a2, -, b2⟩ := C82_step (intStep [0, 1] (.orand 1) true) (fun x : ℤ => if x = 0 then 1 else (2 : ℝ))
    1 0 (.flt 1) (.lin 1) (by simp [evalPscale]) one_pos hs WDraw.t
    l1 1 0 ⟨1/4, 3/4, 0⟩ (b1 (by norm_num [Spec.ratio, Spec.value, hm])).1
    (by rw [intStep_orand hv]; norm_num [Spec.moved])
  refine ⟨_, l2, ⟨rfl, _, rfl⟩, .on _ _ _ _ _ _ a1 (.on _ _ _ _ _ _ a2 (.here _)), ?_⟩
  rw [(b2 (by norm_num [Spec.ratio, Spec.value, hm2])).1]
  exact (b1 (by norm_num [Spec.ratio, Spec.value, hm])).1

end Probayes
