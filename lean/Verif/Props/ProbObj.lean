/-
C70: the scale of a probability object and evaluation on other scales.
-/
import Verif.Model.ProbObj
import Verif.Props.PScales

namespace Probayes

/-- The specifications that are not `None`, zero or empty. -/
def Spec.Stated (s : PSpec) : Prop :=
  s ≠ .none ∧ s ≠ .str "" ∧ s ≠ .int 0 ∧ s ≠ .flt 0 ∧ s ≠ .cplx 0 0

theorem stated_iff (s : PSpec) : Spec.Stated s ↔ s.truthy = true := by
  cases s with
  | none => exact ⟨fun h => absurd rfl h.1, fun h => by cases h⟩
  | cplx re im => simp [Spec.Stated, PSpec.truthy]; tauto
  | _ => simp [Spec.Stated, PSpec.truthy]

theorem setScale_given (old : Option PScale) (s : PSpec) (h : Spec.Stated s) :
    setScale old s = evalPscale s := by
  simp only [stated_iff] at h
  simp [setScale, h]

theorem setScale_keeps (a : PScale) (ha : evalPscale a.spec = .ok a) (s : PSpec) (h : ¬ Spec.Stated s) :
    setScale (some a) s = .ok a := by
  simp only [stated_iff] at h
  simp [setScale, h, ha]

/-- Scales that setting can leave. -/
theorem setScale_stable (old : Option PScale) (s : PSpec) (a : PScale) (h : setScale old s = .ok a) :
    evalPscale a.spec = .ok a := C03_idempotent _ a h

theorem setScales_quiet (a : PScale) (ha : evalPscale a.spec = .ok a) (l : List PSpec)
    (h : ∀ s ∈ l, ¬ Spec.Stated s) : setScales (some a) l = .ok (some a) := by
  induction l with
  | nil => rfl
  | cons s l ih =>
    simp only [setScales, setScale_keeps a ha s (h s (by simp)), bind, Except.bind]
    exact ih fun s hs => h s (by simp [hs])

theorem setScales_split (old : Option PScale) (l l' : List PSpec) (r : Option PScale)
    (h : setScales old (l ++ l') = .ok r) :
    ∃ m, setScales old l = .ok m ∧ setScales m l' = .ok r := by
  induction l generalizing old with
  | nil => exact ⟨old, rfl, h⟩
  | cons s l ih =>
    simp only [List.cons_append, setScales, bind, Except.bind] at h ⊢
    cases hs : setScale old s with
    | error e => rw [hs] at h; cases h
    | ok a => rw [hs] at h; exact ih _ h

/-- **C70 (intended).**  The scale is that last specified. -/
def C70_scale_claim : Prop :=
  ∀ (l : List PSpec) (s : PSpec) (a r : PScale), s ≠ .none → evalPscale s = .ok a →
    setScales none (l ++ [s]) = .ok (some r) → r = a

/-- **C70, scales.**  After any sequence of settings the scale is that last specified
by other than `None`, zero or the empty string … -/
theorem C70_scale_partial (l l' : List PSpec) (s : PSpec) (a : PScale) (r : Option PScale)
    (hs : Spec.Stated s) (ha : evalPscale s = .ok a) (hl' : ∀ t ∈ l', ¬ Spec.Stated t)
    (h : setScales none (l ++ [s] ++ l') = .ok r) : r = some a := by
  obtain ⟨m, h1, h2⟩ := setScales_split none (l ++ [s]) l' r h
  obtain ⟨m', _, h4⟩ := setScales_split none l [s] m h1
  simp only [setScales, setScale_given m' s hs, ha, bind, Except.bind] at h4
  cases h4
  rw [setScales_quiet a (C03_idempotent s a ha) l' hl'] at h2
  cases h2
  rfl

/-- … and one if there is none. -/
theorem C70_scale_default (l : List PSpec) (hne : l ≠ []) (h : ∀ s ∈ l, ¬ Spec.Stated s) :
    setScales none l = .ok (some (.lin 1)) := by
  cases l with
  | nil => exact absurd rfl hne
  | cons s l =>
    have h1 : setScale none s = .ok (.lin 1) := by
      have := h s (by simp)
      rw [stated_iff] at this
      simp [setScale, this, evalPscale]
    simp only [setScales, h1, bind, Except.bind]
    exact setScales_quiet _ (by simp [PScale.spec, evalPscale]) l fun t ht => h t (by simp [ht])

/-- **C70, refusal.**  What is no scale is refused. -/
theorem C70_scale_refused (old : Option PScale) (s : PSpec) (hs : Spec.Stated s)
    (h : s = .other ∨ ∃ t, s = .str t ∧ t ≠ "log" ∧ t ≠ "ln") : Raises (setScale old s) := by
  rw [setScale_given old s hs]
  rcases h with rfl | ⟨t, rfl, h1, h2⟩
  · exact ⟨_, rfl⟩
  · exact ⟨.value, by simp [evalPscale, h1, h2]⟩

/-- **C70, negation.**  Zero, real or complex, is a logarithmic scale wherever scales
are evaluated, but is disregarded by `set_prob`: the scale is linear. -/
theorem C70_scale_claim_fails : ¬ C70_scale_claim := by
  intro h
  have := h [] (.cplx 0 0) (.log 0 0) (.lin 1) (by simp) (by simp [evalPscale, complexZero])
    (C70_scale_default [.cplx 0 0] (by simp) (by simp [Spec.Stated]))
  cases this

/-- **C70, rescaling.**  `rescale` keeps the probabilities meant, … -/
theorem C70_rescale (own b : PScale) (x : ℝ) (t : PSpec) (ho : evalPscale own.spec = .ok own)
    (ht : evalPscale t = .ok b) (hv : Spec.Valid own) (hb : Spec.Valid b) (hc : Spec.Unclamped x own b) :
    ∃ y, probRescale own x (some t) = .ok y ∧ Spec.value b y = Spec.value own x :=
  C01_rescale_value x own.spec t own b ho ht hv hb hc

/-- … and without a scale returns them as they are. -/
theorem C70_rescale_none (own : PScale) (x : ℝ) : probRescale own x none = .ok x := rfl

/-- **C70 (intended), evaluation.**  Evaluation with a scale gives the probability
rescaled. -/
def C70_eval_claim : Prop :=
  ∀ (own b : PScale) (x : ℝ) (t : PSpec), evalPscale own.spec = .ok own → evalPscale t = .ok b →
    Spec.Valid own → Spec.Valid b → Spec.Unclamped x own b →
    ∃ y, probEval (.ok x) (some t) = .ok y ∧ Spec.value b y = Spec.value own x

/-- **C70, evaluation.**  Every evaluation with a scale (other than `None` or zero)
raises, whatever is evaluated. -/
theorem C70_eval_raises (raw : Py ℝ) (t : PSpec) (ht : Spec.Stated t) : Raises (probEval raw (some t)) := by
  rw [stated_iff] at ht
  cases raw with
  | error e => exact ⟨e, rfl⟩
  | ok x => exact ⟨.key, by simp [probEval, ht, bind, Except.bind]⟩

/-- **C70, evaluation without a scale.** -/
theorem C70_eval_partial (raw : Py ℝ) (pscale : Option PSpec) (h : ∀ t, pscale = some t → ¬ Spec.Stated t) :
    probEval raw pscale = raw := by
  simp only [stated_iff] at h
  cases raw with
  | error e => rfl
  | ok x =>
    cases pscale with
    | none => rfl
    | some t => simp [probEval, h t rfl, bind, Except.bind, pure, Except.pure]

theorem C70_eval_claim_fails : ¬ C70_eval_claim := by
  intro h
  have he : evalPscale (.flt 2) = .ok (.lin 2) := by norm_num [evalPscale]
  obtain ⟨y, hy, -⟩ := h (.lin 1) (.lin 2) 1 (.flt 2) (by simp [PScale.spec, evalPscale]) he
    (by simp [Spec.Valid]) (by simp [Spec.Valid]) trivial
  obtain ⟨e, he⟩ := C70_eval_raises (.ok 1) (.flt 2) (by simp [Spec.Stated])
  rw [hy] at he
  cases he

/-! Fields -/

/-- **C70, fields.**  Setting probabilities without a scale any number of times keeps
the product of the variables' scales. -/
theorem C70_field (pscales : List PScale) (a : PScale) (h : fieldRefresh pscales = .ok a) :
    fieldSetScale pscales a none = .ok a := by
  simp only [fieldRefresh, fieldSetScale, bind, Except.bind] at h ⊢
  cases hp : prodPscale (pscales.map PScale.spec) none with
  | error e => rw [hp] at h; cases h
  | ok p =>
    rw [hp] at h
    dsimp only at h ⊢
    have key : ∀ q : PSpec, evalPscale q = .ok a → setScale (some a) q = .ok a := by
      intro q hq
      by_cases hg : Spec.Stated q
      · rw [setScale_given _ _ hg, hq]
      · exact setScale_keeps a (C03_idempotent _ a hq) _ hg
    exact key _ h

/-- **C70 (intended), fields.**  Setting probabilities without a scale uses the product
of the variables' scales, also after a scale was specified. -/
def C70_field_claim : Prop :=
  ∀ (pscales : List PScale) (a b c : PScale) (s : PSpec), pscales ≠ [] → fieldRefresh pscales = .ok a →
    fieldSetScale pscales a (some s) = .ok b → fieldSetScale pscales b none = .ok c → c = a

/-- **C70, negation.**  Variables on logarithmic scales: a linear scale specified once
stays. -/
theorem C70_field_claim_fails : ¬ C70_field_claim := by
  intro h
  have hp : prodPscale ([PScale.log 0 0].map PScale.spec) none = .ok (some (.log 0 0)) := by
    simp [prodPscale, PSpec.iscomplex, PScale.spec, prodPscaleLog, evalPscale, complexZero, logpOffs,
      encodeOffs, npz_pos, bind, Except.bind, pure, Except.pure]
  have hr : fieldRefresh [.log 0 0] = .ok (.log 0 0) := by
    simp only [fieldRefresh, hp, bind, Except.bind]
    simp [PScale.spec, evalPscale, complexZero]
  have h1 : fieldSetScale [.log 0 0] (.log 0 0) (some (.flt 1)) = .ok (.lin 1) := by
    simp [fieldSetScale, setScale, PSpec.truthy, evalPscale]
  have h2 : fieldSetScale [.log 0 0] (.lin 1) none = .ok (.lin 1) := by
    simp only [fieldSetScale, hp, bind, Except.bind]
    simp [PScale.spec, setScale, PSpec.truthy, evalPscale]
  have := h [.log 0 0] (.log 0 0) (.lin 1) (.lin 1) (.flt 1) (by simp) hr h1 h2
  cases this

/-- **C70, fields.**  It is so if the product is not zero (a logarithmic scale without
offset) and no failure. -/
theorem C70_field_partial (pscales : List PScale) (a b p : PScale)
    (hp : prodPscale (pscales.map PScale.spec) none = .ok (some p)) (hg : Spec.Stated p.spec)
    (h : fieldRefresh pscales = .ok a) : fieldSetScale pscales b none = .ok a := by
  simp only [fieldRefresh, fieldSetScale, bind, Except.bind, hp] at h ⊢
  rw [setScale_given _ _ hg, h]

/-- **C70, fields.**  A scale specified for a field is used, whatever the scales of its
variables … -/
theorem C70_field_stated (pscales : List PScale) (old : PScale) (s : PSpec) (hs : Spec.Stated s) :
    fieldSetScale pscales old (some s) = evalPscale s := setScale_given (some old) s hs

/-- … and one that is `None`, zero or empty leaves the field's scale as it was. -/
theorem C70_field_unstated (pscales : List PScale) (old : PScale) (ho : evalPscale old.spec = .ok old)
    (s : PSpec) (hs : ¬ Spec.Stated s) : fieldSetScale pscales old (some s) = .ok old :=
  setScale_keeps old ho s hs

example : fieldSetScale [.lin 2] (.log 0 0) (some (.int 0)) = .ok (.log 0 0) :=
  C70_field_unstated _ _ (by simp [PScale.spec, evalPscale, complexZero]) _ (by simp [Spec.Stated])

example : Spec.Stated (.flt 2) ∧ Spec.Stated (.str "log") ∧ ¬ Spec.Stated (.int 0) ∧ ¬ Spec.Stated .none := by
  simp [Spec.Stated]

/-- A log scale set at first stays over a later setting without scale. -/
example : setScales none ([.flt 2] ++ [.str "log"] ++ [.none]) = .ok (some (.log 0 0)) := by
  simp [setScales, setScale, PSpec.truthy, evalPscale, complexZero, PScale.spec, bind, Except.bind]

end Probayes
