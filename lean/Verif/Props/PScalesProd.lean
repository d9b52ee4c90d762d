/-
Properties C04-C06: scales of products, product rule, safe division.
-/
import Verif.Props.PScales

namespace Probayes

/-- `l` is a list of scale arguments evaluating to the scales `ss`. -/
def Spec.Evaluates (l : List PSpec) (ss : List PScale) : Prop :=
  List.Forall₂ (fun s e => evalPscale s = .ok e) l ss

theorem probCoef_eq (s : PScale) : probCoef s = Spec.factor s := by
  rcases s with c | ⟨re, im⟩
  · rfl
  · simp only [probCoef, Spec.factor, Spec.offset]; split <;> rfl

theorem prodPscaleLin_eq (l : List PSpec) (ss : List PScale) (h : Spec.Evaluates l ss) :
    ∀ acc, prodPscaleLin l acc = .ok (acc * (ss.map Spec.factor).prod) := by
  induction h with
  | nil => intro acc; simp [prodPscaleLin]
  | cons hs _ ih =>
      intro acc
      simp only [prodPscaleLin, hs, bind, Except.bind, ih, List.map_cons, List.prod_cons,
        probCoef_eq, mul_assoc]

theorem prodPscaleLog_eq (l : List PSpec) (ss : List PScale) (h : Spec.Evaluates l ss) :
    ∀ acc, prodPscaleLog l acc = .ok (acc + (ss.map logpOffs).sum) := by
  induction h with
  | nil => intro acc; simp [prodPscaleLog]
  | cons hs _ ih =>
      intro acc
      simp only [prodPscaleLog, hs, bind, Except.bind, ih, List.map_cons, List.sum_cons,
        add_assoc]

theorem exp_logpOffs (s : PScale) (h : Spec.Valid s) :
    Real.exp (logpOffs s) = Spec.factor s := by
  rcases s with c | ⟨re, im⟩
  · simp only [logpOffs, Spec.factor, Spec.Valid] at *; exact Real.exp_log h
  · simp only [logpOffs_log, Spec.factor]

theorem exp_sum_logpOffs (ss : List PScale) (h : ∀ s ∈ ss, Spec.Valid s) :
    Real.exp (ss.map logpOffs).sum = (ss.map Spec.factor).prod := by
  induction ss with
  | nil => simp
  | cons s ss ih =>
      simp only [List.map_cons, List.sum_cons, List.prod_cons, Real.exp_add]
      rw [exp_logpOffs s (h s (by simp)), ih (fun t ht => h t (by simp [ht]))]

/-- The encoding used at pscales.py:150-156 denotes the accumulated offset only
if that offset is zero. -/
theorem factor_encodeOffs_iff (r : ℝ) : Spec.factor (encodeOffs r) = Real.exp r ↔ r = 0 := by
  have hlt : ∀ u : ℝ, u < Real.exp u := fun u => by linarith [Real.add_one_le_exp u]
  constructor
  · intro h
    by_contra hr
    unfold encodeOffs at h
    split at h
    · simp only [complexZero, Spec.factor, Spec.offset, abs_zero, npz_pos, if_true,
        Real.exp_zero] at h
      exact hr (Real.exp_eq_one_iff r |>.mp h.symm)
    · split at h
      · rename_i hp
        simp only [Spec.factor, Spec.offset, abs_zero, npz_pos, if_true, Real.exp_log hp] at h
        exact absurd h (hlt r).ne
      · rename_i hn hp
        have hneg : 0 < -r := by
          rcases lt_trichotomy r 0 with h | h | h
          · linarith
          · exact absurd h hr
          · exact absurd h hp
        have hpi : ¬ |Real.pi| < npz := by
          rw [abs_of_pos Real.pi_pos]
          have := Real.two_le_pi
          have := npz_lt_one
          linarith
        simp only [Spec.factor, Spec.offset, if_neg hpi, Real.exp_neg, Real.exp_log hneg] at h
        have h2 : -r = Real.exp (-r) := by
          rw [Real.exp_neg, ← h, inv_inv]
        exact absurd h2 (hlt (-r)).ne
  · rintro rfl
    simp [encodeOffs, npz_pos, complexZero, Spec.factor, Spec.offset]

/-! ### C04 -/

/-- C04 full claim: the product scale's factor is the product of the factors. -/
def C04_claim : Prop :=
  ∀ (l : List PSpec) (ss : List PScale), l ≠ [] → Spec.Evaluates l ss →
    (∀ s ∈ ss, Spec.Valid s) →
    ∃ s, prodPscale l none = .ok (some s) ∧ Spec.factor s = (ss.map Spec.factor).prod

/-- C04: without complex scales in the list the product scale is linear and
its coefficient is the product of the factors. -/
theorem C04_linear_partial (l : List PSpec) (ss : List PScale) (hne : l ≠ [])
    (h : Spec.Evaluates l ss) (hlin : ∀ s ∈ l, s.iscomplex = false) :
    prodPscale l none = .ok (some (.lin (ss.map Spec.factor).prod)) := by
  have hany : l.any PSpec.iscomplex = false := by
    simp only [List.any_eq_false]; intro s hs; simp [hlin s hs]
  have hemp : l.isEmpty = false := by cases l <;> simp_all
  simp [prodPscale, hemp, hany, prodPscaleLin_eq l ss h, bind, Except.bind, pure, Except.pure]

/-- C04, exact extent of the log case: with some log scale in the list the
product scale is right if and only if the log offsets add up to zero. -/
theorem C04_log_iff_partial (l : List PSpec) (ss : List PScale) (hne : l ≠ [])
    (h : Spec.Evaluates l ss) (hv : ∀ s ∈ ss, Spec.Valid s)
    (hlog : ∃ s ∈ l, s.iscomplex = true) :
    ∃ s, prodPscale l none = .ok (some s) ∧
      (Spec.factor s = (ss.map Spec.factor).prod ↔ (ss.map Spec.factor).prod = 1) := by
  have hany : l.any PSpec.iscomplex = true := by
    obtain ⟨s, hs, hc⟩ := hlog; simp only [List.any_eq_true]; exact ⟨s, hs, hc⟩
  have hemp : l.isEmpty = false := by cases l <;> simp_all
  refine ⟨encodeOffs (ss.map logpOffs).sum, ?_, ?_⟩
  · simp [prodPscale, hemp, hany, prodPscaleLog_eq l ss h, bind, Except.bind, pure, Except.pure]
  · rw [← exp_sum_logpOffs ss hv, factor_encodeOffs_iff, Real.exp_eq_one_iff]

/-- C04 fails: `prod_pscale([2+0j])` denotes 2 instead of e². -/
theorem C04_claim_fails : ¬ C04_claim := by
  intro h
  have he : Spec.Evaluates [.cplx 2 0] [.log 2 0] := by
    refine List.Forall₂.cons ?_ List.Forall₂.nil
    simp [evalPscale]
  have hv : ∀ s ∈ [PScale.log 2 0], Spec.Valid s := by
    intro s hs; simp at hs; subst hs; trivial
  obtain ⟨s, hs, hf⟩ := h [.cplx 2 0] [.log 2 0] (by simp) he hv
  obtain ⟨s', hs', hf'⟩ := C04_log_iff_partial [.cplx 2 0] [.log 2 0] (by simp) he hv
    ⟨.cplx 2 0, by simp, rfl⟩
  rw [hs] at hs'; cases hs'
  have := hf'.mp hf
  simp [Spec.factor, Spec.offset, npz_pos] at this

example : Spec.Evaluates [.flt 2, .int 3, .none] [.lin 2, .lin 3, .lin 1] := by
  refine .cons ?_ (.cons ?_ (.cons ?_ .nil)) <;> simp [evalPscale]

/-! ### C05 -/

/-- Values which are stored on a linear scale are at least the smallest normal
float, so that taking their logarithm does not clamp them; values stored as
logarithms are not restricted. -/
def Spec.Loggable (xs : List ℝ) (ss : List PScale) : Prop :=
  List.Forall₂ (fun x s => s.iscomplex = false → npz ≤ x) xs ss

/-- C05 full claim: `prod_rule` returns a value and scale denoting the product
of the denoted probabilities (values that must be logged are at least the
smallest normal float). -/
def C05_claim : Prop :=
  ∀ (xs : List ℝ) (ss : List PScale), xs ≠ [] → xs.length = ss.length →
    Spec.Evaluates (ss.map PScale.spec) ss → (∀ s ∈ ss, Spec.Valid s) → Spec.Loggable xs ss →
    ∃ y s, prodRule xs (ss.map PScale.spec) none none = .ok (y, s.spec) ∧
      Spec.value s y = (List.zipWith Spec.value ss xs).prod

theorem foldl_mul (ps : List ℝ) (p : ℝ) :
    ps.foldl (fun acc q => acc * q) p = p * ps.prod := by
  induction ps generalizing p with
  | nil => simp
  | cons q ps ih => simp [ih, mul_assoc]

theorem foldl_add (ps : List ℝ) (p : ℝ) :
    ps.foldl (fun acc q => acc + q) p = p + ps.sum := by
  induction ps generalizing p with
  | nil => simp
  | cons q ps ih => simp [ih, add_assoc]

theorem applyProd_lin (xs : List ℝ) (h : xs ≠ []) : applyProd false xs = .ok xs.prod := by
  cases xs with
  | nil => exact absurd rfl h
  | cons p ps => simp [applyProd, foldl_mul]

theorem applyProd_log (xs : List ℝ) (h : xs ≠ []) : applyProd true xs = .ok xs.sum := by
  cases xs with
  | nil => exact absurd rfl h
  | cons p ps => simp [applyProd, foldl_add]

theorem spec_iscomplex (s : PScale) : s.spec.iscomplex = s.iscomplex := by cases s <;> rfl

theorem specEq_self (s : PScale) : specEq (some s) s.spec = true := by
  cases s <;> simp [specEq, PScale.spec]

/-- Product of linear values. -/
theorem prod_value_lin (xs : List ℝ) (ss : List PScale) (hl : xs.length = ss.length)
    (hlin : ∀ s ∈ ss, s.iscomplex = false) :
    (List.zipWith Spec.value ss xs).prod = (ss.map Spec.factor).prod * xs.prod := by
  induction ss generalizing xs with
  | nil => cases xs <;> simp_all
  | cons s ss ih =>
      cases xs with
      | nil => simp at hl
      | cons x xs =>
          have := ih xs (by simpa using hl) (fun t ht => hlin t (by simp [ht]))
          have hs := hlin s (by simp)
          rcases s with c | ⟨re, im⟩
          · simp only [List.zipWith_cons_cons, List.prod_cons, List.map_cons, this, Spec.value,
              Spec.factor]; ring
          · simp [PScale.iscomplex] at hs

/-- C05: for linear scales the product rule is exact, without restriction on
the values. -/
theorem C05_linear_partial (xs : List ℝ) (ss : List PScale) (hne : xs ≠ [])
    (hl : xs.length = ss.length) (he : Spec.Evaluates (ss.map PScale.spec) ss)
    (hlin : ∀ s ∈ ss, s.iscomplex = false) :
    ∃ y s, prodRule xs (ss.map PScale.spec) none none = .ok (y, s.spec) ∧
      s.iscomplex = false ∧
      Spec.value s y = (List.zipWith Spec.value ss xs).prod := by
  have hssne : ss ≠ [] := by rintro rfl; simp at hl; exact hne hl
  have hany : (ss.map PScale.spec).any PSpec.iscomplex = false := by
    simp only [List.any_eq_false, List.mem_map]; rintro _ ⟨s, hs, rfl⟩
    simp [spec_iscomplex, hlin s hs]
  have hemp : ss.isEmpty = false := by cases ss <;> simp_all
  refine ⟨xs.prod, .lin (ss.map Spec.factor).prod, ?_, rfl, ?_⟩
  · simp [prodRule, prodPscale, hemp, hany, hl, prodPscaleLin_eq _ ss he, bind, Except.bind,
      pure, Except.pure, PScale.iscomplex, specEq_self, applyProd_lin xs hne, hssne,
      PSpec.iscomplex, PScale.spec]
    simp [specEq]
  · rw [prod_value_lin xs ss hl hlin]; rfl

/-- One factor brought to log form denotes, with its own offset, its value. -/
theorem exp_toCommon (x : ℝ) (s : PScale) (hv : Spec.Valid s)
    (hx : s.iscomplex = false → npz ≤ x) :
    Real.exp (toCommon true x s.spec + logpOffs s) = Spec.value s x := by
  rcases s with c | ⟨re, im⟩
  · simp only [Spec.Valid] at hv
    simp only [toCommon, PScale.spec, PSpec.iscomplex, logpOffs_lin, Spec.value, if_true,
      Bool.false_eq_true, if_false]
    rw [Real.exp_add, (C02_logProb_spec x).1 (hx rfl), Real.exp_log hv, mul_comm]
  · simp [toCommon, PScale.spec, PSpec.iscomplex, logpOffs_log, Spec.value]

theorem exp_sum_toCommon (xs : List ℝ) (ss : List PScale) (hl : xs.length = ss.length)
    (hv : ∀ s ∈ ss, Spec.Valid s) (hx : Spec.Loggable xs ss) :
    Real.exp ((List.zipWith (toCommon true) xs (ss.map PScale.spec)).sum
      + (ss.map logpOffs).sum) = (List.zipWith Spec.value ss xs).prod := by
  induction ss generalizing xs with
  | nil => cases xs <;> simp_all
  | cons s ss ih =>
      cases xs with
      | nil => simp at hl
      | cons x xs =>
          have := ih xs (by simpa using hl) (fun t ht => hv t (by simp [ht]))
            (List.forall₂_cons.mp hx).2
          simp only [List.map_cons, List.zipWith_cons_cons, List.sum_cons, List.prod_cons,
            ← this, ← exp_toCommon x s (hv s (by simp)) (List.forall₂_cons.mp hx).1]
          rw [← Real.exp_add]; congr 1; ring

theorem zipWith_toCommon_of_all (xs : List ℝ) (l : List PSpec) (hl : xs.length = l.length)
    (h : ∀ s ∈ l, s.iscomplex = true) : List.zipWith (toCommon true) xs l = xs := by
  induction l generalizing xs with
  | nil => cases xs <;> simp_all
  | cons s l ih =>
      cases xs with
      | nil => simp at hl
      | cons x xs =>
          simp [toCommon, h s (by simp), ih xs (by simpa using hl) (fun t ht => h t (by simp [ht]))]

/-- C05: with log scales, alone or mixed with linear ones, the product rule is
right when the scales' factors multiply to one (e.g. `'log'` with 1). -/
theorem C05_log_partial (xs : List ℝ) (ss : List PScale) (hne : xs ≠ [])
    (hl : xs.length = ss.length) (he : Spec.Evaluates (ss.map PScale.spec) ss)
    (hv : ∀ s ∈ ss, Spec.Valid s) (hx : Spec.Loggable xs ss)
    (hlog : ∃ s ∈ ss, s.iscomplex = true) (hone : (ss.map Spec.factor).prod = 1) :
    ∃ y s, prodRule xs (ss.map PScale.spec) none none = .ok (y, s.spec) ∧
      s.iscomplex = true ∧
      Spec.value s y = (List.zipWith Spec.value ss xs).prod := by
  have hssne : ss ≠ [] := by rintro rfl; simp at hl; exact hne hl
  have hany : (ss.map PScale.spec).any PSpec.iscomplex = true := by
    obtain ⟨s, hs, hc⟩ := hlog
    simp only [List.any_eq_true, List.mem_map]; exact ⟨s.spec, ⟨s, hs, rfl⟩, by rw [spec_iscomplex, hc]⟩
  have hemp : ss.isEmpty = false := by cases ss <;> simp_all
  have hsum : (ss.map logpOffs).sum = 0 := by
    rw [← Real.exp_eq_one_iff, exp_sum_logpOffs ss hv, hone]
  set ys := List.zipWith (toCommon true) xs (ss.map PScale.spec) with hys
  have hysne : ys ≠ [] := by
    rw [hys]; cases xs <;> cases ss <;> simp_all
  refine ⟨ys.sum, complexZero, ?_, rfl, ?_⟩
  · have hen : encodeOffs (0 + (ss.map logpOffs).sum) = complexZero := by
      rw [hsum]; simp [encodeOffs, npz_pos]
    simp only [prodRule, prodPscale, hemp, hany, hl, prodPscaleLog_eq _ ss he, bind, Except.bind,
      pure, Except.pure, List.isEmpty_map, List.length_map, hen, Option.getD_none,
      Option.getD_some, if_true, Bool.false_eq_true, if_false, ne_eq, not_true_eq_false]
    simp only [complexZero, PScale.iscomplex, PScale.spec, PSpec.iscomplex, not_true_eq_false,
      if_false]
    split
    · rename_i hf
      have hall : ∀ s ∈ ss.map PScale.spec, s.iscomplex = true := by
        simp at hf; simpa using hf.2
      rw [zipWith_toCommon_of_all xs _ (by simpa using hl) hall] at hys
      simp [applyProd_log xs hne, hys]
    · simp [applyProd_log ys hysne, ← hys]
  · rw [← exp_sum_toCommon xs ss hl hv hx, hsum, add_zero]
    simp [Spec.value, complexZero, Spec.offset, npz_pos, hys]

/-- C05 fails for log scales with an offset: one value 0.5 on the log scale with
offset 2. -/
theorem C05_claim_fails : ¬ C05_claim := by
  intro h
  have he : Spec.Evaluates [PSpec.cplx 2 0] [.log 2 0] :=
    List.Forall₂.cons (by simp [evalPscale]) List.Forall₂.nil
  obtain ⟨y, s, hy, hs⟩ := h [1/2] [.log 2 0] (by simp) rfl he
    (by intro s hs; simp at hs; subst hs; trivial)
    (.cons (by simp [PScale.iscomplex]) .nil)
  have h2 : ¬ (2:ℝ) < npz := by linarith [npz_lt_one]
  simp [prodRule, prodPscale, PSpec.iscomplex, PScale.spec, bind, Except.bind, pure, Except.pure,
    prodPscaleLog, evalPscale, logpOffs, npz_pos, encodeOffs, h2, PScale.iscomplex, specEq,
    applyProd] at hy
  obtain ⟨rfl, hs'⟩ := hy
  rcases s with c | ⟨re, im⟩ <;> simp [PScale.spec] at hs'
  obtain ⟨rfl, rfl⟩ := hs'
  simp [Spec.value, Spec.offset, npz_pos] at hs
  have := Real.add_one_le_exp (2 : ℝ)
  have h3 : Real.log 2 = 2 := hs
  have h4 := Real.log_le_sub_one_of_pos (by norm_num : (0:ℝ) < 2)
  linarith

/-- C05: a requested output scale of the other kind (linear for log or log for
linear) always raises ValueError: line 214 passes the list of scales instead of
the requested scale. -/
theorem C05_requested_other_kind_raises (xs : List ℝ) (ss : List PScale) (out : PSpec)
    (hne : xs ≠ []) (hl : xs.length = ss.length)
    (he : Spec.Evaluates (ss.map PScale.spec) ss)
    (hout : out.iscomplex ≠ ss.any PScale.iscomplex) :
    prodRule xs (ss.map PScale.spec) none (some out) = .error .value := by
  have hssne : ss ≠ [] := by rintro rfl; simp at hl; exact hne hl
  have hemp : ss.isEmpty = false := by cases ss <;> simp_all
  have hany : (ss.map PScale.spec).any PSpec.iscomplex = ss.any PScale.iscomplex := by
    rw [List.any_map]; congr 1; funext s; exact spec_iscomplex s
  have hz : ∀ u, List.zipWith (toCommon u) xs (ss.map PScale.spec) ≠ [] := by
    intro u; cases xs <;> cases ss <;> simp_all
  have hresc : ∀ (y : ℝ) (a : PSpec), rescale y a .other = .error .value := by
    intro y a
    rcases C03_accepts a with ⟨⟨b, hb⟩, _⟩ | ⟨hb, _⟩ <;>
      simp only [rescale, hb, bind, Except.bind] <;> rfl
  have henc : ∀ r, (encodeOffs r).iscomplex = true := by
    intro r; unfold encodeOffs; split <;> [skip; split] <;> rfl
  cases hu : ss.any PScale.iscomplex
  · rw [hu] at hany hout
    have hout' : out.iscomplex = true := by simpa using hout
    simp [prodRule, prodPscale, hemp, hany, hl, prodPscaleLin_eq _ ss he, bind, Except.bind,
      pure, Except.pure, PScale.iscomplex, hout', applyProd_lin _ (hz false), hresc]
  · rw [hu] at hany hout
    have hout' : out.iscomplex = false := by simpa using hout
    simp [prodRule, prodPscale, hemp, hany, hl, prodPscaleLog_eq _ ss he, bind, Except.bind,
      pure, Except.pure, henc, hout', applyProd_log _ (hz true), hresc]

/-- C05, requested output scale: a requested linear scale is attached to the
result without converting the value. -/
theorem C05_requested_scale_fails :
    ∃ y, prodRule [1/2, 1/2] [.flt 1, .flt 1] none (some (.flt 2)) = .ok (y, .flt 2) ∧
      Spec.value (.lin 2) y ≠ (1/2) * (1/2) := by
  refine ⟨1/4, ?_, by simp [Spec.value]; norm_num⟩
  simp [prodRule, prodPscale, PSpec.iscomplex, bind, Except.bind, pure, Except.pure,
    prodPscaleLin, evalPscale, probCoef, PScale.iscomplex, specEq, applyProd, toCommon]
  norm_num

/-- Non-vacuity: three linear factors, and a log factor with a linear one. -/
example : ∃ xs : List ℝ, ∃ ss : List PScale, xs.length = 3 ∧ xs.length = ss.length ∧
    Spec.Evaluates (ss.map PScale.spec) ss ∧ (∀ s ∈ ss, s.iscomplex = false) :=
  ⟨[1/2, 1/3, 0], [.lin 1, .lin 2, .lin 5], rfl, rfl,
    .cons (by simp [PScale.spec, evalPscale]) (.cons (by simp [PScale.spec, evalPscale])
      (.cons (by simp [PScale.spec, evalPscale]) .nil)), by simp [PScale.iscomplex]⟩

example : Spec.Evaluates ([PScale.lin 1, complexZero].map PScale.spec) [.lin 1, complexZero] ∧
    (([PScale.lin 1, complexZero].map Spec.factor).prod = 1) :=
  ⟨.cons (by simp [PScale.spec, evalPscale])
    (.cons (by simp [PScale.spec, evalPscale, complexZero]) .nil),
   by simp [Spec.factor, complexZero, Spec.offset, npz_pos]⟩

/-! ### C06 -/

/-- C06: `div_prob` denotes the quotient of the denoted probabilities with the
divisor raised to at least the smallest normal float, on the output scale. -/
theorem C06_divProb_value (x y : ℝ) (s t out : PSpec) (a b c : PScale)
    (hs : evalPscale s = .ok a) (ht : evalPscale t = .ok b) (hc : evalPscale out = .ok c)
    (htr : out.truthy = true)
    (ha : Spec.Valid a) (hb : Spec.Valid b) (hcv : Spec.Valid c)
    (h1 : Spec.Unclamped x a (.lin 1)) (h2 : Spec.Unclamped y b (.lin 1))
    (h3 : Spec.Unclamped (Spec.value a x / max npz (Spec.value b y)) (.lin 1) c) :
    ∃ z, divProb x y (some (s, t)) out = .ok z ∧
      Spec.value c z = Spec.value a x / max npz (Spec.value b y) := by
  have hs' := C03_idempotent s a hs
  have ht' := C03_idempotent t b ht
  have hn : evalPscale .none = .ok (.lin 1) := rfl
  obtain ⟨x', hx', hvx⟩ := C01_rescale_value x a.spec .none a (.lin 1) hs' hn ha one_pos h1
  obtain ⟨y', hy', hvy⟩ := C01_rescale_value y b.spec .none b (.lin 1) ht' hn hb one_pos h2
  have hx1 : x' = Spec.value a x := by simpa [Spec.value] using hvx
  have hy1 : y' = Spec.value b y := by simpa [Spec.value] using hvy
  subst hx1 hy1
  obtain ⟨z, hz, hvz⟩ := C01_rescale_value _ .none out (.lin 1) c hn hc one_pos hcv h3
  refine ⟨z, ?_, by rw [hvz]; simp [Spec.value]⟩
  simp [divProb, hs, ht, bind, Except.bind, pure, Except.pure, htr, hx', hy', hz]

/-- C06: the default output scale (no `pscale` keyword) is the dividend's. -/
theorem C06_divProb_default_scale (x y : ℝ) (s t : PSpec) (a : PScale)
    (hs : evalPscale s = .ok a) :
    divProb x y (some (s, t)) .none = divProb x y (some (s, t)) a.spec := by
  have hs' := C03_idempotent s a hs
  simp only [divProb, hs, bind, Except.bind, pure, Except.pure]
  cases evalPscale t <;> simp [PSpec.truthy]

/-- C06: on linear scale 1 the result is exact for every dividend and every
divisor from the smallest normal float upwards, and finite otherwise. -/
theorem C06_divProb_linear (x y : ℝ) :
    divProb x y none .none = .ok (x / max npz y) ∧ (npz ≤ y → x / max npz y = x / y) ∧
      max npz y ≠ 0 := by
  refine ⟨?_, fun h => by rw [max_eq_right h], ?_⟩
  · simp [divProb, rescale, evalPscale, bind, Except.bind, pure, Except.pure, rescaleE]
  · exact (lt_of_lt_of_le npz_pos (le_max_left _ _)).ne'

/-- C06 full claim on the output scale: whatever scale is requested, the result
is on that scale. -/
def C06_requested_claim : Prop :=
  ∀ (x y : ℝ) (s t out : PSpec) (c : PScale), evalPscale out = .ok c →
    evalPscale s = .ok (.lin 1) → evalPscale t = .ok (.lin 1) → npz ≤ x → npz ≤ y →
    npz ≤ x / y → ∃ z, divProb x y (some (s, t)) out = .ok z ∧ Spec.value c z = x / y

/-- C06: requesting the log scale as `0j` (or 0) for linear inputs is ignored
(`pscale or pscales[0]`, line 232): the linear quotient is returned. -/
theorem C06_requested_claim_fails : ¬ C06_requested_claim := by
  intro h
  obtain ⟨z, hz, hv⟩ := h 1 2 (.flt 1) (.flt 1) (.cplx 0 0) complexZero
    (by simp [evalPscale]) (by simp [evalPscale]) (by simp [evalPscale])
    (by unfold npz; norm_num) (by unfold npz; norm_num) (by unfold npz; norm_num)
  have hm : max npz 2 = 2 := max_eq_right (by unfold npz; norm_num)
  simp [divProb, rescale, evalPscale, bind, Except.bind, pure, Except.pure, rescaleE,
    PSpec.truthy, PScale.spec, hm] at hz
  subst hz
  simp [Spec.value, complexZero, Spec.offset, npz_pos] at hv
  have := Real.add_one_le_exp (2⁻¹ : ℝ)
  rw [hv] at this; norm_num at this

/-- Non-vacuity of `C06_divProb_value`: 0.2 / 0.5 on linear scales 2 and 3. -/
example : ∃ z, divProb (1/5) (1/2) (some (.flt 2, .flt 3)) (.flt 7) = .ok z ∧
    Spec.value (.lin 7) z = Spec.value (.lin 2) (1/5) / max npz (Spec.value (.lin 3) (1/2)) :=
  C06_divProb_value _ _ _ _ _ (.lin 2) (.lin 3) (.lin 7) (by simp [evalPscale])
    (by simp [evalPscale]) (by simp [evalPscale]) (by simp [PSpec.truthy])
    (by simp [Spec.Valid]) (by simp [Spec.Valid]) (by simp [Spec.Valid]) trivial trivial trivial

end Probayes
