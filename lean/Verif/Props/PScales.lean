/-
Properties C01-C06: probability scales.
-/
import Verif.Lemmas.PScales

namespace Probayes

/-! ### C02: `log_prob` and `exp_logp` -/

/-- C02: `log_prob` is monotone. -/
theorem C02_logProb_mono : Monotone logProb := by
  intro x y h
  unfold logProb
  split <;> split
  · exact Real.log_le_log (lt_of_lt_of_le npz_pos ‹_›) h
  · linarith
  · have := Real.log_le_log npz_pos ‹npz ≤ y›
    linarith [nni_lt_log_npz]
  · exact le_refl _

/-- C02: `log_prob` never returns anything below the finite sentinel. -/
theorem C02_logProb_finite (p : ℝ) : -npi ≤ logProb p := by
  unfold logProb
  split
  · have := Real.log_le_log npz_pos ‹npz ≤ p›
    have := nni_lt_log_npz
    unfold nni at this; linarith
  · exact le_refl _

/-- C02: `log_prob` is the natural logarithm from the smallest normal float on,
and the sentinel exactly below it. -/
theorem C02_logProb_spec (p : ℝ) :
    (npz ≤ p → Real.exp (logProb p) = p) ∧ (logProb p = -npi ↔ p < npz) := by
  constructor
  · intro h; unfold logProb; rw [if_pos h, Real.exp_log (lt_of_lt_of_le npz_pos h)]
  · constructor
    · intro h
      by_contra hc
      have hc : npz ≤ p := not_lt.mp hc
      unfold logProb at h; rw [if_pos hc] at h
      have := Real.log_le_log npz_pos hc
      have := nni_lt_log_npz
      unfold nni at this; linarith
    · intro h; unfold logProb; rw [if_neg (not_le.mpr h)]; rfl

/-- C02: `exp_logp` is monotone. -/
theorem C02_expLogp_mono : Monotone expLogp := by
  intro x y h
  unfold expLogp
  split <;> split
  · exact Real.exp_le_exp.mpr h
  · rw [← exp_logNpi]; exact Real.exp_le_exp.mpr ‹_›
  · linarith
  · exact le_refl _

/-- C02: `exp_logp` is positive and bounded by the largest float. -/
theorem C02_expLogp_bounds (l : ℝ) : 0 < expLogp l ∧ expLogp l ≤ npi := by
  unfold expLogp
  split
  · refine ⟨Real.exp_pos _, ?_⟩
    rw [← exp_logNpi]; exact Real.exp_le_exp.mpr ‹_›
  · exact ⟨npi_pos, le_refl _⟩

/-- C02: `exp_logp` inverts `log_prob` on every value between the smallest
normal and the largest float. -/
theorem C02_exp_log_inverse (p : ℝ) (h0 : npz ≤ p) (h1 : p ≤ npi) :
    expLogp (logProb p) = p := by
  have hp := lt_of_lt_of_le npz_pos h0
  unfold logProb expLogp
  rw [if_pos h0, if_pos (show Real.log p ≤ logNpi from Real.log_le_log hp h1), Real.exp_log hp]

/-- C02: a probability of (numerically) zero comes back from log space as
numerically zero. -/
theorem C02_exp_log_zero (p : ℝ) (h : p < npz) : expLogp (logProb p) < npz := by
  unfold logProb expLogp
  rw [if_neg (not_le.mpr h), if_pos (by linarith [nni_neg, logNpi_pos])]
  exact exp_nni_lt_npz

/-- C02: `log_prob` inverts `exp_logp` on the representable log range. -/
theorem C02_log_exp_inverse (l : ℝ) (h0 : Real.log npz ≤ l) (h1 : l ≤ logNpi) :
    logProb (expLogp l) = l := by
  unfold expLogp logProb
  rw [if_pos h1, if_pos ((Real.log_le_iff_le_exp npz_pos).mp h0), Real.log_exp]

example : npz ≤ (1/2 : ℝ) ∧ (1/2 : ℝ) ≤ npi :=
  ⟨by unfold npz; norm_num, by unfold npi; norm_num⟩

/-! ### C01: rescaling -/

/-- Conditions under which no clamp of `rescale` is active: a linear value that
has to be logged is at least the smallest normal float, a log value that has to
be exponentiated does not overflow, and offsets that differ do so by at least
the smallest normal float (always so for normal floats). -/
def Spec.Unclamped (x : ℝ) : PScale → PScale → Prop
  | .lin _, .lin _ => True
  | .lin c, .log re im => npz ≤ x ∧
      (Real.log c = Spec.offset re im ∨ npz ≤ |Real.log c - Spec.offset re im|)
  | .log re im, .lin c => x + Spec.offset re im - Real.log c ≤ Real.log npi ∧
      (Spec.offset re im = Real.log c ∨ npz ≤ |Spec.offset re im - Real.log c|)
  | .log re im, .log re' im' =>
      Spec.offset re im = Spec.offset re' im' ∨
      npz ≤ |Spec.offset re im - Spec.offset re' im'|

/-- C01: rescaling keeps the denoted probability. -/
theorem C01_rescale_value (x : ℝ) (s t : PSpec) (a b : PScale)
    (hs : evalPscale s = .ok a) (ht : evalPscale t = .ok b)
    (ha : Spec.Valid a) (hb : Spec.Valid b) (hc : Spec.Unclamped x a b) :
    ∃ y, rescale x s t = .ok y ∧ Spec.value b y = Spec.value a x := by
  refine ⟨rescaleE x a b, by simp [rescale, hs, ht, bind, Except.bind, pure, Except.pure], ?_⟩
  rcases a with c | ⟨re, im⟩ <;> rcases b with d | ⟨re', im'⟩ <;>
    simp only [Spec.Valid, Spec.Unclamped] at ha hb hc
  · simp only [rescaleE, Spec.value]
    by_cases h : c = d
    · rw [if_pos h, h]
    · rw [if_neg h]
      by_cases h' : c / d = 1
      · exact absurd ((div_eq_one_iff_eq hb.ne').mp h') h
      · rw [if_neg h']; field_simp
  · obtain ⟨hx, hd⟩ := hc
    have hlog : Real.exp (logProb x) = x := (C02_logProb_spec x).1 hx
    simp only [rescaleE, Spec.value, logpOffs_log, logpOffs_lin]
    by_cases hn : npz ≤ |Real.log c - Spec.offset re' im'|
    · rw [if_pos hn, show logProb x + (Real.log c - Spec.offset re' im') + Spec.offset re' im'
          = Real.log c + logProb x by ring, Real.exp_add, Real.exp_log ha, hlog]
    · rw [if_neg hn]
      rcases hd with hd | hd
      · rw [← hd, add_comm, Real.exp_add, Real.exp_log ha, hlog]
      · exact absurd hd hn
  · obtain ⟨hx, hd⟩ := hc
    simp only [rescaleE, Spec.value, logpOffs_log, logpOffs_lin]
    by_cases hn : npz ≤ |Spec.offset re im - Real.log d|
    · rw [if_pos hn]; unfold expLogp
      rw [if_pos (by unfold logNpi; linarith),
        show x + (Spec.offset re im - Real.log d) = (x + Spec.offset re im) - Real.log d by ring,
        Real.exp_sub, Real.exp_log hb]
      field_simp
    · rw [if_neg hn]
      rcases hd with hd | hd
      · rw [hd] at hx ⊢
        unfold expLogp
        rw [if_pos (by unfold logNpi; linarith), Real.exp_add, Real.exp_log hb, mul_comm]
      · exact absurd hd hn
  · simp only [rescaleE, Spec.value, logpOffs_log]
    by_cases h : re = re' ∧ im = im'
    · obtain ⟨rfl, rfl⟩ := h; simp
    · rw [if_neg h]
      by_cases hn : npz ≤ |Spec.offset re im - Spec.offset re' im'|
      · rw [if_pos hn]; congr 1; ring
      · rw [if_neg hn]
        rcases hc with hd | hd
        · rw [hd]
        · exact absurd hd hn

/-- C01: rescaling to the same scale returns the input unchanged (no clamping,
no rounding, even for zero). -/
theorem C01_rescale_same (x : ℝ) (s : PSpec) (a : PScale)
    (hs : evalPscale s = .ok a) : rescale x s s = .ok x := by
  simp only [rescale, hs, bind, Except.bind, pure, Except.pure]
  rcases a with c | ⟨re, im⟩ <;> simp [rescaleE]

/-- C01: between linear scales rescaling is the exact ratio, without any
restriction on the value. -/
theorem C01_rescale_linear (x c d : ℝ) (hc : 0 < c) (hd : 0 < d) :
    rescale x (.flt c) (.flt d) = .ok (c / d * x) := by
  have e : ∀ r : ℝ, 0 < r → evalPscale (.flt r) = .ok (.lin r) := by
    intro r hr
    simp only [evalPscale]
    by_cases h : r = 1
    · simp [h]
    · simp [h, hr.ne']
  simp only [rescale, e c hc, e d hd, bind, Except.bind, pure, Except.pure, rescaleE]
  split
  · subst d; rw [div_self hc.ne', one_mul]
  · split
    · rename_i h; rw [h, one_mul]
    · rfl

/-- Values are determined by what they denote. -/
theorem Spec.value_injective (a : PScale) (ha : Spec.Valid a) :
    Function.Injective (Spec.value a) := by
  intro x y h
  rcases a with c | ⟨re, im⟩
  · simp only [Spec.value, Spec.Valid] at *
    exact mul_left_cancel₀ ha.ne' h
  · simp only [Spec.value] at h
    have := Real.exp_injective h
    linarith

/-- C01: going to another scale and back returns the input. -/
theorem C01_rescale_roundtrip (x : ℝ) (s t : PSpec) (a b : PScale)
    (hs : evalPscale s = .ok a) (ht : evalPscale t = .ok b)
    (ha : Spec.Valid a) (hb : Spec.Valid b)
    (h1 : Spec.Unclamped x a b)
    (h2 : ∀ y, rescale x s t = .ok y → Spec.Unclamped y b a) :
    ∃ y, rescale x s t = .ok y ∧ rescale y t s = .ok x := by
  obtain ⟨y, hy, hv⟩ := C01_rescale_value x s t a b hs ht ha hb h1
  obtain ⟨z, hz, hw⟩ := C01_rescale_value y t s b a ht hs hb ha (h2 y hy)
  refine ⟨y, hy, ?_⟩
  rw [hz, Spec.value_injective a ha (hw.trans hv)]

/-- C01: rescaling through an intermediate scale equals rescaling directly. -/
theorem C01_rescale_compose (x : ℝ) (s t u : PSpec) (a b c : PScale)
    (hs : evalPscale s = .ok a) (ht : evalPscale t = .ok b) (hu : evalPscale u = .ok c)
    (ha : Spec.Valid a) (hb : Spec.Valid b) (hc : Spec.Valid c)
    (h1 : Spec.Unclamped x a b) (h2 : Spec.Unclamped x a c)
    (h3 : ∀ y, rescale x s t = .ok y → Spec.Unclamped y b c) :
    ∃ y, rescale x s t = .ok y ∧ rescale y t u = rescale x s u := by
  obtain ⟨y, hy, hv⟩ := C01_rescale_value x s t a b hs ht ha hb h1
  obtain ⟨z, hz, hw⟩ := C01_rescale_value y t u b c ht hu hb hc (h3 y hy)
  obtain ⟨z', hz', hw'⟩ := C01_rescale_value x s u a c hs hu ha hc h2
  refine ⟨y, hy, ?_⟩
  rw [hz, hz', Spec.value_injective c hc (hw.trans (hv.trans hw'.symm))]

/-- Non-vacuity: 0.25 on the linear scale goes to the log scale and back. -/
example : ∃ y, rescale (1/4) .none (.str "log") = .ok y ∧
    rescale y (.str "log") .none = .ok (1/4) := by
  have hq : npz ≤ (1/4 : ℝ) := by unfold npz; norm_num
  have ho : Spec.offset 0 0 = 0 := by simp [Spec.offset]
  refine C01_rescale_roundtrip (1/4) .none (.str "log") (.lin 1) complexZero rfl
    (by simp [evalPscale]) one_pos trivial ?_ ?_
  · exact ⟨hq, Or.inl (by simp [ho])⟩
  · intro y hy
    have hy' : y = Real.log (1/4) := by
      simp [rescale, evalPscale, bind, Except.bind, pure, Except.pure, rescaleE,
        complexZero, logpOffs_log, logpOffs_lin, ho, not_le.mpr npz_pos] at hy
      rw [← hy]; unfold logProb; rw [if_pos (by norm_num at hq ⊢; exact hq)]; norm_num
    refine ⟨?_, Or.inl (by simp [ho])⟩
    rw [hy', ho]
    simp only [Real.log_one, add_zero, sub_zero]
    exact Real.log_le_log (by norm_num) (by unfold npi; norm_num)

/-! ### C03: scale specifications -/

/-- C03: exactly `None`, 'log', 'ln' and numbers are accepted; everything else
is a ValueError. -/
theorem C03_accepts (s : PSpec) :
    (∃ a, evalPscale s = .ok a) ∧ s ≠ .other ∧ (∀ t, s = .str t → t = "log" ∨ t = "ln") ∨
    evalPscale s = .error .value ∧ (s = .other ∨ ∃ t, s = .str t ∧ t ≠ "log" ∧ t ≠ "ln") := by
  rcases s with _ | t | n | r | ⟨re, im⟩ | _
  · left; simp [evalPscale]
  · by_cases h : t = "log" ∨ t = "ln"
    · left; simp [evalPscale, h]
    · right; simp only [evalPscale, if_neg h]; exact ⟨trivial, Or.inr ⟨t, rfl, not_or.mp h⟩⟩
  · left; simp only [evalPscale]; refine ⟨?_, by simp, by simp⟩
    split <;> [skip; split] <;> exact ⟨_, rfl⟩
  · left; simp only [evalPscale]; refine ⟨?_, by simp, by simp⟩
    split <;> [skip; split] <;> exact ⟨_, rfl⟩
  · left; simp only [evalPscale]; refine ⟨?_, by simp, by simp⟩
    split <;> [skip; split] <;> exact ⟨_, rfl⟩
  · right; simp [evalPscale]

/-- C03: evaluation is idempotent. -/
theorem C03_idempotent (s : PSpec) (a : PScale) (h : evalPscale s = .ok a) :
    evalPscale a.spec = .ok a := by
  rcases s with _ | t | n | r | ⟨re, im⟩ | _ <;> simp only [evalPscale] at h
  · cases h; simp [PScale.spec, evalPscale]
  · split at h
    · cases h; simp [PScale.spec, evalPscale, complexZero]
    · cases h
  · split at h
    · cases h; simp [PScale.spec, evalPscale]
    · split at h
      · cases h; simp [PScale.spec, evalPscale, complexZero]
      · cases h
        rename_i h1 h0
        have h1' : (n : ℝ) ≠ 1 := by exact_mod_cast h1
        have h0' : (n : ℝ) ≠ 0 := by exact_mod_cast h0
        simp [PScale.spec, evalPscale, h1', h0']
  · split at h
    · cases h; simp [PScale.spec, evalPscale]
    · split at h
      · cases h; simp [PScale.spec, evalPscale, complexZero]
      · cases h; rename_i h1 h0; simp [PScale.spec, evalPscale, h1, h0]
  · split at h
    · cases h; simp [PScale.spec, evalPscale]
    · split at h
      · cases h; simp [PScale.spec, evalPscale, complexZero]
      · cases h; rename_i h1 h0; simp only [PScale.spec, evalPscale, if_neg h1, if_neg h0]
  · cases h

/-- C03 full claim on complex scales: a complex specification always is a log
scale with that offset. -/
def C03_claim : Prop := ∀ re im : ℝ, evalPscale (.cplx re im) = .ok (.log re im)

/-- C03 fails: the log offset `1+0j` is silently turned into the linear scale 1
(`pscale == 1`, line 29) ... -/
theorem C03_claim_fails : ¬ C03_claim := by
  intro h
  have := h 1 0
  simp [evalPscale] at this

/-- ... so that a stored log probability 0 with offset 1 (denoting e) is read
back as probability 0. -/
theorem C03_offset_one_misread :
    rescale 0 (.cplx 1 0) .none = .ok 0 ∧ Spec.value (.log 1 0) 0 = Real.exp 1 := by
  refine ⟨by simp [rescale, evalPscale, bind, Except.bind, pure, Except.pure, rescaleE], ?_⟩
  simp [Spec.value, Spec.offset, npz_pos]

/-- C03: every other complex specification is kept as it is. -/
theorem C03_claim_partial (re im : ℝ) (h : ¬ (re = 1 ∧ im = 0)) :
    evalPscale (.cplx re im) = .ok (.log re im) := by
  simp only [evalPscale, if_neg h]
  split
  · rename_i h0; obtain ⟨rfl, rfl⟩ := h0; rfl
  · rfl

example : ¬ ((3 : ℝ) = 1 ∧ (0 : ℝ) = 0) := by norm_num

end Probayes
