/-
C79: the acceptance rule of a process is the one chosen.

The rule is set by `set_scores`, `set_thresh` and `set_update`, each with the name
of a sampler, a function, a constant or `None`, in any number and order.
-/
import Verif.Model.SPRule
import Verif.Props.MCMC

namespace Probayes

variable {F D Ω : Type}

/-! ### Specification -/

/-- The three samplers by name. -/
inductive Spec.SamplerName : String → MSampler → Prop
  | metropolis : Spec.SamplerName "metropolis" .metropolis
  | hastings : Spec.SamplerName "hastings" .hastings
  | gibbs : Spec.SamplerName "gibbs" .gibbs

/-- The parts of the rule. -/
inductive Spec.RuleSlot
  | scores
  | thresh
  | update

/-- What the process holds for a part. -/
def Spec.holds (r : Rule F) : Spec.RuleSlot → RulePart F
  | .scores => r.scores
  | .thresh => r.thresh
  | .update => r.update

/-- Which parts a setting is about: its own, and with the name of a sampler
(without further arguments) also those after it. -/
inductive Spec.Concerns : RuleOp F → Spec.RuleSlot → Prop
  | scores a e : Spec.Concerns (.scores a e) .scores
  | thresh a e : Spec.Concerns (.thresh a e) .thresh
  | update a e : Spec.Concerns (.update a e) .update
  | scores_thresh x k : Spec.SamplerName x k → Spec.Concerns (.scores (.str x) false) .thresh
  | scores_update x k : Spec.SamplerName x k → Spec.Concerns (.scores (.str x) false) .update
  | thresh_update x k : Spec.SamplerName x k → Spec.Concerns (.thresh (.str x) false) .update

/-- No setting in the list is about the part. -/
def Spec.Untouched (l : List (RuleOp F)) (p : Spec.RuleSlot) : Prop :=
  ∀ op ∈ l, ¬ Spec.Concerns op p

/-! ### Helpers -/

theorem samplerOf_iff (x : String) (k : MSampler) : samplerOf x = some k ↔ Spec.SamplerName x k := by
  constructor
  · intro h
    unfold samplerOf at h
    split_ifs at h with h1 h2 h3 <;> simp only [Option.some.injEq, reduceCtorEq] at h <;> subst h
    · subst h1; exact .metropolis
    · subst h2; exact .hastings
    · subst h3; exact .gibbs
  · rintro ⟨⟩ <;> simp [samplerOf]

theorem sampler_str (a : RuleArg F) (k : MSampler) (h : a.sampler = some k) :
    ∃ x, a = .str x ∧ Spec.SamplerName x k := by
  cases a <;> simp only [RuleArg.sampler, reduceCtorEq] at h
  exact ⟨_, rfl, (samplerOf_iff _ _).1 h⟩

theorem Rule.run_append (r : Rule F) (l m : List (RuleOp F)) :
    r.run (l ++ m) = (r.run l).run m := by
  induction l generalizing r with
  | nil => rfl
  | cons op l ih => exact ih _

theorem setUpdate_other (r : Rule F) (a : RuleArg F) (e : Bool) :
    (r.setUpdate a e).1.scores = r.scores ∧ (r.setUpdate a e).1.thresh = r.thresh ∧
    (r.setUpdate a e).1.scale = r.scale := by
  unfold Rule.setUpdate
  repeat' split
  all_goals exact ⟨rfl, rfl, rfl⟩

theorem setThresh_other (r : Rule F) (a : RuleArg F) (e : Bool) :
    (r.setThresh a e).1.scores = r.scores ∧ (r.setThresh a e).1.scale = r.scale ∧
    ((∀ x k, a = .str x → e = false → ¬ Spec.SamplerName x k) →
      (r.setThresh a e).1.update = r.update) := by
  unfold Rule.setThresh
  split
  next k hk =>
    obtain ⟨x, rfl, hx⟩ := sampler_str a k hk
    split
    · exact ⟨rfl, rfl, fun _ => rfl⟩
    next he =>
      have := setUpdate_other ({r with thresh := .named k .none} : Rule F) (.str x) false
      refine ⟨this.1, this.2.2, fun h => absurd hx (h x k rfl (by simpa using he))⟩
  next hk =>
    split <;> exact ⟨rfl, rfl, fun _ => rfl⟩

theorem setScores_other (r : Rule F) (a : RuleArg F) (e : Bool) :
    (r.setScores a e).1.scale = r.scale ∧
    ((∀ x k, a = .str x → e = false → ¬ Spec.SamplerName x k) →
      (r.setScores a e).1.thresh = r.thresh ∧ (r.setScores a e).1.update = r.update) := by
  unfold Rule.setScores
  split
  next k hk =>
    obtain ⟨x, rfl, hx⟩ := sampler_str a k hk
    split
    · exact ⟨rfl, fun _ => ⟨rfl, rfl⟩⟩
    next he =>
      have := setThresh_other ({r with scores := .named k r.scale.spec} : Rule F) (.str x) false
      refine ⟨this.2.1, fun h => absurd hx (h x k rfl (by simpa using he))⟩
  next hk =>
    split <;> exact ⟨rfl, fun _ => ⟨rfl, rfl⟩⟩

/-! ### C79: what each setting leaves alone -/

/-- C79: a setting changes only the parts it is about, whether it succeeds or
raises. -/
theorem C79_only (r : Rule F) (op : RuleOp F) (p : Spec.RuleSlot) (h : ¬ Spec.Concerns op p) :
    Spec.holds (r.apply op).1 p = Spec.holds r p := by
  cases op with
  | scores a e =>
    cases p with
    | scores => exact absurd (.scores a e) h
    | thresh =>
      refine ((setScores_other r a e).2 ?_).1
      rintro x k rfl rfl hx
      exact h (.scores_thresh x k hx)
    | update =>
      refine ((setScores_other r a e).2 ?_).2
      rintro x k rfl rfl hx
      exact h (.scores_update x k hx)
  | thresh a e =>
    cases p with
    | scores => exact (setThresh_other r a e).1
    | thresh => exact absurd (.thresh a e) h
    | update =>
      refine (setThresh_other r a e).2.2 ?_
      rintro x k rfl rfl hx
      exact h (.thresh_update x k hx)
  | update a e =>
    cases p with
    | scores => exact (setUpdate_other r a e).1
    | thresh => exact (setUpdate_other r a e).2.1
    | update => exact absurd (.update a e) h
  | scale q =>
    show Spec.holds (r.setScale q).1 p = _
    unfold Rule.setScale
    split <;> cases p <;> rfl

/-- C79: so does any sequence of settings. -/
theorem C79_untouched (r : Rule F) (l : List (RuleOp F)) (p : Spec.RuleSlot)
    (h : Spec.Untouched l p) : Spec.holds (r.run l) p = Spec.holds r p := by
  induction l generalizing r with
  | nil => rfl
  | cons op l ih =>
    show Spec.holds ((r.apply op).1.run l) p = _
    rw [ih _ (fun o ho => h o (List.mem_cons_of_mem _ ho)), C79_only r op p (h op List.mem_cons_self)]

/-! ### C79: the name of a sampler -/

/-- C79: naming a sampler for the scores chooses its scores, on the scale of the
process at that moment, its threshold and its update, whatever was set before, and
each stays until a setting about it. -/
theorem C79_named (r : Rule F) (l m : List (RuleOp F)) (x : String) (k : MSampler)
    (hx : Spec.SamplerName x k) :
    let r' := r.run (l ++ .scores (.str x) false :: m)
    (Spec.Untouched m .scores → r'.scores = .named k (r.run l).scale.spec) ∧
    (Spec.Untouched m .thresh → r'.thresh = .named k .none) ∧
    (Spec.Untouched m .update → r'.update = .named k .none) := by
  have hk := (samplerOf_iff x k).2 hx
  have hs : ((r.run l).apply (.scores (.str x) false)).1 =
      ⟨.named k (r.run l).scale.spec, .named k .none, .named k .none, (r.run l).scale⟩ := by
    simp [Rule.apply, Rule.setScores, Rule.setThresh, Rule.setUpdate, RuleArg.sampler, hk]
  have he : r.run (l ++ .scores (.str x) false :: m) =
      ((r.run l).apply (.scores (.str x) false)).1.run m := by
    rw [Rule.run_append]; rfl
  intro r'
  refine ⟨fun h => ?_, fun h => ?_, fun h => ?_⟩
  · have := C79_untouched ((r.run l).apply (.scores (.str x) false)).1 m .scores h
    simp only [Spec.holds] at this
    show (r.run _).scores = _
    rw [he, this, hs]
  · have := C79_untouched ((r.run l).apply (.scores (.str x) false)).1 m .thresh h
    simp only [Spec.holds] at this
    show (r.run _).thresh = _
    rw [he, this, hs]
  · have := C79_untouched ((r.run l).apply (.scores (.str x) false)).1 m .update h
    simp only [Spec.holds] at this
    show (r.run _).update = _
    rw [he, this, hs]

/-- C79: naming a sampler for the threshold chooses threshold and update; for the
update the update alone. -/
theorem C79_named_rest (r : Rule F) (m : List (RuleOp F)) (x : String) (k : MSampler)
    (hx : Spec.SamplerName x k) :
    (Spec.Untouched m .thresh → (r.run (.thresh (.str x) false :: m)).thresh = .named k .none) ∧
    (Spec.Untouched m .update → (r.run (.thresh (.str x) false :: m)).update = .named k .none) ∧
    (Spec.Untouched m .update → (r.run (.update (.str x) false :: m)).update = .named k .none) := by
  have hk := (samplerOf_iff x k).2 hx
  refine ⟨fun h => ?_, fun h => ?_, fun h => ?_⟩
  · have := C79_untouched (r.apply (.thresh (.str x) false)).1 m .thresh h
    simp only [Spec.holds] at this
    show ((r.apply (.thresh (.str x) false)).1.run m).thresh = _
    rw [this]
    simp [Rule.apply, Rule.setThresh, Rule.setUpdate, RuleArg.sampler, hk]
  · have := C79_untouched (r.apply (.thresh (.str x) false)).1 m .update h
    simp only [Spec.holds] at this
    show ((r.apply (.thresh (.str x) false)).1.run m).update = _
    rw [this]
    simp [Rule.apply, Rule.setThresh, Rule.setUpdate, RuleArg.sampler, hk]
  · have := C79_untouched (r.apply (.update (.str x) false)).1 m .update h
    simp only [Spec.holds] at this
    show ((r.apply (.update (.str x) false)).1.run m).update = _
    rw [this]
    simp [Rule.apply, Rule.setUpdate, RuleArg.sampler, hk]

/-- A setting of the part with the argument. -/
def Spec.setting (p : Spec.RuleSlot) (a : RuleArg F) (e : Bool) : RuleOp F :=
  match p with
  | .scores => .scores a e
  | .thresh => .thresh a e
  | .update => .update a e

theorem apply_plain (r : Rule F) (p : Spec.RuleSlot) (a : RuleArg F) (e : Bool) (q : RulePart F)
    (ha : a.sampler = none) (hq : expressionOf a e = .ok q) :
    Spec.holds (r.apply (Spec.setting p a e)).1 p = q ∧
    (r.apply (Spec.setting p a e)).2 = .ok () := by
  cases p <;>
    simp [Spec.setting, Rule.apply, Rule.setScores, Rule.setThresh, Rule.setUpdate, ha, hq,
      Spec.holds]

theorem run_setting (r : Rule F) (m : List (RuleOp F)) (p : Spec.RuleSlot) (a : RuleArg F)
    (e : Bool) (h : Spec.Untouched m p) :
    Spec.holds (r.run (Spec.setting p a e :: m)) p =
      Spec.holds (r.apply (Spec.setting p a e)).1 p :=
  C79_untouched (r.apply (Spec.setting p a e)).1 m p h

/-- C79: a function, with or without arguments, a number, or `None` is taken for
its part, until a setting about it. -/
theorem C79_own (r : Rule F) (m : List (RuleOp F)) (p : Spec.RuleSlot) (h : Spec.Untouched m p) :
    (∀ f e, Spec.holds (r.run (Spec.setting p (.fn f) e :: m)) p = .fn f) ∧
    (∀ x, Spec.holds (r.run (Spec.setting p (.num x) false :: m)) p = .const (.num x)) ∧
    (∀ e, Spec.holds (r.run (Spec.setting p .none e :: m)) p = .unset) := by
  refine ⟨fun f e => ?_, fun x => ?_, fun e => ?_⟩
  · rw [run_setting r m p _ _ h]; exact (apply_plain r p _ _ _ rfl rfl).1
  · rw [run_setting r m p _ _ h]; exact (apply_plain r p _ _ _ rfl rfl).1
  · rw [run_setting r m p _ _ h]; exact (apply_plain r p _ _ _ rfl rfl).1

/-! ### C79: acceptance -/

/-- C79, full claim: after naming `metropolis` a sample is accepted just when the
threshold drawn does not exceed the ratio of the probabilities, read on the scale
of the process. -/
def C79_claim : Prop :=
  ∀ (E : RuleEnv Empty SA ℝ) (r : Rule Empty) (m : List (RuleOp Empty)),
    (∀ p, Spec.Untouched m p) → ∀ (a : PScale),
    (r.run (.scores (.str "metropolis") false :: m)).scale = a → Spec.Valid a →
    evalPscale a.spec = .ok a → E.prob = id →
    ∀ (x y : ℝ) (q w : Option SA) (ω : ℝ), Spec.Unclamped x a (.lin 1) →
      Spec.Unclamped y a (.lin 1) →
      (r.run (.scores (.str "metropolis") false :: m)).accepts E false
          ⟨some (.scalar x), some (.scalar y), q, w⟩ ω =
        .ok (decide (E.uniform ω ≤ min 1 (Spec.value a y / max npz (Spec.value a x))))

/-- An environment without functions. -/
def noFunctions : RuleEnv Empty SA ℝ := ⟨id, nofun, nofun, nofun, id⟩

theorem accepts_metropolis (E : RuleEnv F SA Ω) (r : Rule F) (s : PSpec) (a : PScale)
    (h1 : r.scores = .named .metropolis s) (h2 : r.thresh = .named .metropolis .none)
    (h3 : r.update = .named .metropolis .none) (hE : E.prob = id)
    (hs : evalPscale s = .ok a) (ha : Spec.Valid a) (x y : ℝ) (q w : Option SA) (ω : Ω)
    (hx : Spec.Unclamped x a (.lin 1)) (hy : Spec.Unclamped y a (.lin 1)) :
    r.accepts E false ⟨some (.scalar x), some (.scalar y), q, w⟩ ω =
      .ok (decide (E.uniform ω ≤ min 1 (Spec.value a y / max npz (Spec.value a x)))) := by
  have hsc := C35_score s a x y q w hs ha hx hy
  unfold Rule.accepts
  rw [h1, h2, h3]
  simp only [RulePart.evalScores, hE, hsc, RulePart.evalThresh, RulePart.evalUpdate,
    RuleVal.ofScore, metropolisVerdict, RuleVal.ge, bind, Except.bind, pure, Except.pure,
    RulePart.isUnset, Bool.false_or]
  by_cases hu : E.uniform ω ≤ min 1 (Spec.value a y / max npz (Spec.value a x))
  · simp only [hu, decide_true, if_true, RuleVal.truthy]
  · simp only [hu, decide_false, Bool.false_eq_true, if_false, RuleVal.truthy]

/-- C79 fails: a scale assigned after the sampler is not the one the scores are
computed on. -/
theorem C79_claim_fails : ¬ C79_claim := by
  intro h
  have hrun : ((Rule.new (.lin 1) : Rule Empty).run
      [.scores (.str "metropolis") false, .scale (.str "log")]) =
      ⟨.named .metropolis (.flt 1), .named .metropolis .none, .named .metropolis .none,
        .log 0 0⟩ := by
    simp [Rule.run, Rule.apply, Rule.setScores, Rule.setThresh, Rule.setUpdate, Rule.setScale,
      RuleArg.sampler, samplerOf, Rule.new, PScale.spec, evalPscale, complexZero]
  have hm : ∀ p, Spec.Untouched ([.scale (.str "log")] : List (RuleOp Empty)) p := by
    intro p op hop
    simp only [List.mem_singleton] at hop
    subst hop
    rintro ⟨⟩
  have hu : ∀ x : ℝ, x ≤ 0 → Spec.Unclamped x (.log 0 0) (.lin 1) := by
    intro x hx
    refine ⟨?_, Or.inl ?_⟩
    · simp only [Spec.offset, Real.log_one]
      have : 0 ≤ Real.log npi := Real.log_nonneg (by unfold npi; norm_num)
      simp
      linarith
    · simp [Spec.offset]
  have key := h noFunctions (Rule.new (.lin 1)) [.scale (.str "log")] hm (.log 0 0)
    (by rw [hrun]) (by simp [Spec.Valid]) (by simp [PScale.spec, evalPscale, complexZero]) rfl
    (-2) (-1) none none (1/2) (hu _ (by norm_num)) (hu _ (by norm_num))
  have act := accepts_metropolis noFunctions
    ((Rule.new (.lin 1) : Rule Empty).run [.scores (.str "metropolis") false, .scale (.str "log")])
    (.flt 1) (.lin 1) (by rw [hrun]) (by rw [hrun]) (by rw [hrun]) rfl (by simp [evalPscale])
    one_pos (-2) (-1) none none (1/2) trivial trivial
  rw [act] at key
  have h1 : ¬ (1/2 : ℝ) ≤ min 1 (Spec.value (.lin 1) (-1) / max npz (Spec.value (.lin 1) (-2))) := by
    have hn : 0 < max npz (Spec.value (.lin 1) (-2)) := lt_of_lt_of_le npz_pos (le_max_left _ _)
    have : Spec.value (.lin 1) (-1) / max npz (Spec.value (.lin 1) (-2)) < 0 :=
      div_neg_of_neg_of_pos (by simp [Spec.value]) hn
    intro hc
    have := le_trans hc (min_le_right _ _)
    linarith
  have h2 : (1/2 : ℝ) ≤ min 1 (Spec.value (.log 0 0) (-1) / max npz (Spec.value (.log 0 0) (-2))) := by
    have hn : max npz (Spec.value (.log 0 0) (-2)) ≤ Spec.value (.log 0 0) (-1) := by
      simp only [Spec.value, Spec.offset]
      apply max_le
      · have h3 : Real.exp 1 ≤ 3 := by have := Real.exp_one_lt_d9; linarith
        have h4 : (3:ℝ)⁻¹ ≤ (Real.exp 1)⁻¹ := inv_anti₀ (Real.exp_pos _) h3
        have h5 : npz ≤ (3:ℝ)⁻¹ := by unfold npz; norm_num
        have h6 : Real.exp (-1) = (Real.exp 1)⁻¹ := Real.exp_neg 1
        simp only [le_refl, if_true, neg_zero, ite_self, add_zero]
        rw [h6]; linarith
      · apply Real.exp_le_exp.2
        simp
    have hp : 0 < max npz (Spec.value (.log 0 0) (-2)) := lt_of_lt_of_le npz_pos (le_max_left _ _)
    have : 1 ≤ Spec.value (.log 0 0) (-1) / max npz (Spec.value (.log 0 0) (-2)) :=
      (one_le_div hp).2 hn
    rw [min_eq_left this]
    norm_num
  have e1 : noFunctions.uniform (1/2) = 1/2 := rfl
  rw [e1, decide_eq_false h1, decide_eq_true h2] at key
  simp at key

/-- The setting assigns no scale. -/
def Spec.KeepsScale (l : List (RuleOp F)) : Prop := ∀ p, .scale p ∉ l

theorem run_scale (r : Rule F) (l : List (RuleOp F)) (h : Spec.KeepsScale l) :
    (r.run l).scale = r.scale := by
  induction l generalizing r with
  | nil => rfl
  | cons op l ih =>
    show ((r.apply op).1.run l).scale = _
    rw [ih _ (fun p hp => h p (List.mem_cons_of_mem _ hp))]
    cases op with
    | scores a e => exact (setScores_other r a e).1
    | thresh a e => exact (setThresh_other r a e).2.1
    | update a e => exact (setUpdate_other r a e).2.2
    | scale p => exact absurd List.mem_cons_self (h p)

/-- C79, what holds: whatever was set before, after naming `metropolis` and as long
as neither the rule nor the scale is set anew, a sample is accepted just when the
threshold drawn does not exceed the ratio of the probabilities read on the scale of
the process.  Missing: a scale assigned after the sampler was named. -/
theorem C79_partial (E : RuleEnv F SA Ω) (r : Rule F) (l m : List (RuleOp F))
    (hm : ∀ p, Spec.Untouched m p) (hsc : Spec.KeepsScale m) (a : PScale)
    (hscale : (r.run (l ++ .scores (.str "metropolis") false :: m)).scale = a)
    (ha : Spec.Valid a) (haa : evalPscale a.spec = .ok a) (hE : E.prob = id)
    (x y : ℝ) (q w : Option SA) (ω : Ω) (hx : Spec.Unclamped x a (.lin 1))
    (hy : Spec.Unclamped y a (.lin 1)) :
    (r.run (l ++ .scores (.str "metropolis") false :: m)).accepts E false
        ⟨some (.scalar x), some (.scalar y), q, w⟩ ω =
      .ok (decide (E.uniform ω ≤ min 1 (Spec.value a y / max npz (Spec.value a x)))) := by
  obtain ⟨h1, h2, h3⟩ := C79_named r l m "metropolis" .metropolis .metropolis
  have hs : (r.run (l ++ .scores (.str "metropolis") false :: m)).scale = (r.run l).scale := by
    rw [Rule.run_append]
    show (((r.run l).apply (.scores (.str "metropolis") false)).1.run m).scale = _
    rw [run_scale _ m hsc]
    exact (setScores_other _ _ _).1
  rw [hs] at hscale
  exact accepts_metropolis E _ _ a (h1 (hm _)) (h2 (hm _)) (h3 (hm _)) hE
    (by rw [hscale]; exact haa) ha x y q w ω hx hy

/-- C79_partial is about something: a process on the log scale on which a Gibbs
sampler and a function were set before. -/
example : ((Rule.new (.log 0 0) : Rule ℕ).run ([.scores (.str "gibbs") false, .update (.fn 3) true] ++
      .scores (.str "metropolis") false :: [])).accepts
        (⟨id, fun _ _ => .ok .none, fun _ _ => .ok .none, fun _ _ _ => .ok .none, id⟩ : RuleEnv ℕ SA ℝ)
        false ⟨some (.scalar 0), some (.scalar (-1)), none, none⟩ (1/2) = .ok false := by
  have hu : ∀ x : ℝ, x ≤ 0 → Spec.Unclamped x (.log 0 0) (.lin 1) := by
    intro x hx
    refine ⟨?_, Or.inl ?_⟩
    · simp only [Spec.offset, Real.log_one]
      have : 0 ≤ Real.log npi := Real.log_nonneg (by unfold npi; norm_num)
      simp
      linarith
    · simp [Spec.offset]
  rw [C79_partial _ _ _ _ (fun _ _ h => by simp at h) (fun _ h => by simp at h) (.log 0 0) ?_
    (by simp [Spec.Valid]) (by simp [PScale.spec, evalPscale, complexZero]) rfl 0 (-1) none none (1/2)
    (hu _ le_rfl) (hu _ (by norm_num))]
  · congr 1
    refine decide_eq_false ?_
    simp only [id_eq, Spec.value, Spec.offset]
    simp only [ite_self, neg_zero, add_zero, Real.exp_zero]
    have h1 : max npz 1 = 1 := max_eq_right (by unfold npz; norm_num)
    rw [h1, div_one]
    intro hc
    have h2 := le_trans hc (min_le_right _ _)
    have h3 : (2:ℝ) < Real.exp 1 := by have := Real.exp_one_gt_d9; linarith
    have h4 : (Real.exp 1)⁻¹ < (2:ℝ)⁻¹ := inv_strictAnti₀ (by norm_num) h3
    rw [Real.exp_neg] at h2
    linarith
  · rw [run_scale]
    · rfl
    · intro p hp; simp at hp

/-- C79 for Hastings, on the plain linear scale and with equal densities of forward
and reverse proposal: a sample is accepted just when the threshold drawn does not
exceed the ratio of the probabilities.  Missing: other proposals, for which the
scores are wrong (C36_claim_fails), and other scales (C36_log_claim_fails). -/
theorem C79_hastings_partial (E : RuleEnv F SA Ω) (r : Rule F) (l m : List (RuleOp F))
    (hm : ∀ p, Spec.Untouched m p) (hscale : (r.run l).scale = .lin 1) (hE : E.prob = id)
    (x y q : ℝ) (ω : Ω) (hx : npz ≤ x) (hy : npz ≤ y) (hq : npz ≤ q) (hxq : npz ≤ x * q)
    (hyq : npz ≤ y * q) :
    (r.run (l ++ .scores (.str "hastings") false :: m)).accepts E false
        ⟨some (.scalar x), some (.scalar y), some (.scalar q), some (.scalar q)⟩ ω =
      .ok (decide (E.uniform ω ≤ min 1 (y / x))) := by
  obtain ⟨h1, h2, h3⟩ := C79_named r l m "hastings" .hastings .hastings
  have hsc := (C36_symmetric_partial x y q hx hy hq hxq hyq).1
  unfold Rule.accepts
  rw [h1 (hm _), h2 (hm _), h3 (hm _), hscale]
  simp only [RulePart.evalScores, hE, PScale.spec, hsc, RulePart.evalThresh, RulePart.evalUpdate,
    RuleVal.ofScore, metropolisVerdict, RuleVal.ge, bind, Except.bind, pure, Except.pure,
    RulePart.isUnset, Bool.false_or]
  by_cases hu : E.uniform ω ≤ min 1 (y / x)
  · simp only [hu, decide_true, if_true, RuleVal.truthy]
  · simp only [hu, decide_false, Bool.false_eq_true, if_false, RuleVal.truthy]

/-- C79_hastings_partial is about something. -/
example : ((Rule.new (.lin 1) : Rule Empty).run ([] ++ .scores (.str "hastings") false :: [])).accepts
    noFunctions false ⟨some (.scalar (1/2)), some (.scalar (1/4)), some (.scalar (1/3)),
      some (.scalar (1/3))⟩ (3/4) = .ok false := by
  rw [C79_hastings_partial noFunctions _ _ _ (fun _ _ h => by simp at h) rfl rfl _ _ _ _
    (by unfold npz; norm_num) (by unfold npz; norm_num) (by unfold npz; norm_num)
    (by unfold npz; norm_num) (by unfold npz; norm_num)]
  congr 1
  refine decide_eq_false ?_
  show ¬ (3/4 : ℝ) ≤ _
  norm_num

/-- C79: with the Gibbs sampler every sample is accepted. -/
theorem C79_gibbs (E : RuleEnv F D Ω) (r : Rule F) (l m : List (RuleOp F))
    (hm : ∀ p, Spec.Untouched m p) (first : Bool) (x : OPQR D) (ω : Ω) :
    (r.run (l ++ .scores (.str "gibbs") false :: m)).accepts E first x ω = .ok true := by
  obtain ⟨h1, h2, h3⟩ := C79_named r l m "gibbs" .gibbs .gibbs
  unfold Rule.accepts
  rw [h1 (hm _), h2 (hm _), h3 (hm _)]
  simp [RulePart.evalScores, RulePart.evalThresh, RulePart.evalUpdate, bind, Except.bind, pure,
    Except.pure, RuleVal.truthy]

/-- C79: the update of Metropolis with the scores of Gibbs rejects every sample but
the first. -/
theorem C79_gibbs_mixed (E : RuleEnv F D Ω) (r : Rule F) (x : OPQR D) (ω : Ω) (first : Bool) :
    (r.run [.scores (.str "gibbs") false, .update (.str "metropolis") false]).accepts E first x ω =
      .ok first := by
  simp [Rule.run, Rule.apply, Rule.setScores, Rule.setThresh, Rule.setUpdate, RuleArg.sampler,
    samplerOf, Rule.accepts, RulePart.evalScores, RulePart.evalThresh, RulePart.evalUpdate, bind,
    Except.bind, pure, Except.pure, RuleVal.truthy, metropolisVerdict, RuleVal.ge,
    RulePart.isUnset]

/-- C79: a threshold or update by name without scores accepts every sample. -/
theorem C79_no_scores (E : RuleEnv F D Ω) (r : Rule F) (h : r.scores = .unset) (x : OPQR D) (ω : Ω)
    (k : MSampler) (n : String) (hn : Spec.SamplerName n k) (first : Bool) :
    (r.run [.thresh (.str n) false]).accepts E first x ω = .ok true := by
  cases hn <;>
  simp [Rule.run, Rule.apply, Rule.setThresh, Rule.setUpdate, RuleArg.sampler, h,
    samplerOf, Rule.accepts, RulePart.evalScores, RulePart.evalThresh, RulePart.evalUpdate, bind,
    Except.bind, pure, Except.pure, RuleVal.truthy, metropolisVerdict]

/-- C79: a process without update accepts every sample, whatever its scores. -/
theorem C79_no_update (E : RuleEnv F D Ω) (r : Rule F) (l m : List (RuleOp F)) (e : Bool)
    (hm : Spec.Untouched m .update) (x : OPQR D) (ω : Ω) (b first : Bool)
    (h : (r.run (l ++ .update .none e :: m)).accepts E first x ω = .ok b) : b = true := by
  have hu : (r.run (l ++ .update .none e :: m)).update = .unset := by
    rw [Rule.run_append]
    exact (C79_own (r.run l) m .update hm).2.2 e
  unfold Rule.accepts at h
  simp only [bind, Except.bind, pure, Except.pure] at h
  split at h
  · cases h
  split at h
  · cases h
  split at h
  · cases h
  · rw [hu] at h
    simpa [RulePart.isUnset] using h.symm

/-! ### C79: refusals -/

/-- C79, claim about refusals: a string that names no sampler is refused. -/
def C79_unknown_claim : Prop :=
  ∀ (r : Rule Empty) (x : String), (∀ k, ¬ Spec.SamplerName x k) →
    ∀ p, Raises (r.apply (Spec.setting p (.str x) false)).2

theorem misspelt (n : String) (h : samplerOf n = none) (k : MSampler) :
    ¬ Spec.SamplerName n k := fun hk => by
  rw [(samplerOf_iff n k).2 hk] at h
  cases h

/-- C79 fails for names: they are taken as constants. -/
theorem C79_unknown_claim_fails : ¬ C79_unknown_claim := by
  intro h
  obtain ⟨e, he⟩ := h (Rule.new (.lin 1)) "Metropolis" (misspelt _ (by simp [samplerOf])) .scores
  simp [Spec.setting, Rule.apply, Rule.setScores, RuleArg.sampler, samplerOf, expressionOf] at he

/-- C79: a name misspelt is accepted for any part, and a process with nothing else
set then accepts every sample. -/
theorem C79_misspelt (E : RuleEnv F D Ω) (s : PScale) (n : String)
    (hn : ∀ k, ¬ Spec.SamplerName n k) (x : OPQR D) (ω : Ω) (first : Bool) :
    ((Rule.new s : Rule F).apply (.scores (.str n) false)).2 = .ok () ∧
    ((Rule.new s : Rule F).run [.scores (.str n) false]).accepts E first x ω = .ok true := by
  have hs : samplerOf n = none := by
    cases hk : samplerOf n with
    | none => rfl
    | some k => exact absurd ((samplerOf_iff n k).1 hk) (hn k)
  constructor <;>
  simp [Rule.run, Rule.new, Rule.apply, Rule.setScores, RuleArg.sampler, hs, expressionOf,
    Rule.accepts, RulePart.evalScores, RulePart.evalThresh, RulePart.evalUpdate, bind, Except.bind,
    pure, Except.pure, RulePart.isUnset]

/-- "Metropolis" and the empty name are misspelt. -/
example : (∀ k, ¬ Spec.SamplerName "Metropolis" k) ∧ (∀ k, ¬ Spec.SamplerName "" k) :=
  ⟨misspelt _ (by simp [samplerOf]), misspelt _ (by simp [samplerOf])⟩

/-- C79: names and constants with further arguments, and lists, are refused. -/
theorem C79_refused (r : Rule F) (p : Spec.RuleSlot) :
    (∀ n, Raises (r.apply (Spec.setting p (.str n) true)).2) ∧
    (∀ x, Raises (r.apply (Spec.setting p (.num x) true)).2) ∧
    (∀ e, Raises (r.apply (Spec.setting p .unhashable e)).2) := by
  refine ⟨fun n => ?_, fun x => ?_, fun e => ?_⟩
  · cases h : samplerOf n <;> cases p <;>
      simp [Raises, Spec.setting, Rule.apply, Rule.setScores, Rule.setThresh, Rule.setUpdate,
        RuleArg.sampler, h, expressionOf]
  · cases p <;>
      simp [Raises, Spec.setting, Rule.apply, Rule.setScores, Rule.setThresh, Rule.setUpdate,
        RuleArg.sampler, expressionOf]
  · cases p <;>
      simp [Raises, Spec.setting, Rule.apply, Rule.setScores, Rule.setThresh, Rule.setUpdate,
        RuleArg.sampler, expressionOf]

/-- C79: all other settings succeed. -/
theorem C79_accepted (r : Rule F) (p : Spec.RuleSlot) :
    (∀ n, (r.apply (Spec.setting p (.str n) false)).2 = .ok ()) ∧
    (∀ x, (r.apply (Spec.setting p (.num x) false)).2 = .ok ()) ∧
    (∀ f e, (r.apply (Spec.setting p (.fn f) e)).2 = .ok ()) ∧
    (∀ e, (r.apply (Spec.setting p .none e)).2 = .ok ()) := by
  refine ⟨fun n => ?_, fun x => ?_, fun f e => ?_, fun e => ?_⟩
  · cases h : samplerOf n <;> cases p <;>
      simp [Spec.setting, Rule.apply, Rule.setScores, Rule.setThresh, Rule.setUpdate,
        RuleArg.sampler, h, expressionOf]
  · exact (apply_plain r p _ _ _ rfl rfl).2
  · exact (apply_plain r p _ _ _ rfl rfl).2
  · exact (apply_plain r p _ _ _ rfl rfl).2

/-- C79, claim about refusals: a refused setting leaves the rule as it was. -/
def C79_atomic_claim : Prop :=
  ∀ (r : Rule Empty) (op : RuleOp Empty), Raises (r.apply op).2 → (r.apply op).1 = r

/-- C79 fails for refused settings: what was set is lost. -/
theorem C79_atomic_claim_fails : ¬ C79_atomic_claim := by
  intro h
  have := h ((Rule.new (.lin 1) : Rule Empty).run [.scores (.str "metropolis") false])
    (.update (.str "gibbs") true) ((C79_refused _ .update).1 "gibbs")
  have := congrArg Rule.update this
  simp [Rule.run, Rule.apply, Rule.setScores, Rule.setThresh, Rule.setUpdate, RuleArg.sampler,
    samplerOf] at this

/-- C79: after a refused setting every sample raises, until a setting about that
part. -/
theorem C79_refused_breaks (E : RuleEnv F D Ω) (r : Rule F) (p : Spec.RuleSlot) (a : RuleArg F)
    (e : Bool) (h : Raises (r.apply (Spec.setting p a e)).2) (m : List (RuleOp F))
    (hm : Spec.Untouched m p) (first : Bool) (x : OPQR D) (ω : Ω) :
    Raises ((r.run (Spec.setting p a e :: m)).accepts E first x ω) := by
  have hraw : Spec.holds (r.run (Spec.setting p a e :: m)) p = .raw := by
    rw [run_setting r m p a e hm]
    cases hs : a.sampler with
    | some k =>
      cases e
      · obtain ⟨n, rfl, hn⟩ := sampler_str a k hs
        rw [(C79_accepted r p).1 n] at h
        obtain ⟨_, h⟩ := h
        cases h
      · cases p <;>
          simp [Spec.setting, Rule.apply, Rule.setScores, Rule.setThresh, Rule.setUpdate, hs,
            Spec.holds]
    | none =>
      cases he : expressionOf a e with
      | ok q =>
        rw [(apply_plain r p a e q hs he).2] at h
        obtain ⟨_, h⟩ := h
        cases h
      | error er =>
        cases p <;>
          simp [Spec.setting, Rule.apply, Rule.setScores, Rule.setThresh, Rule.setUpdate, hs, he,
            Spec.holds]
  generalize r.run (Spec.setting p a e :: m) = r' at hraw
  unfold Rule.accepts
  cases p with
  | scores =>
    simp only [Spec.holds] at hraw
    rw [hraw]
    exact ⟨_, rfl⟩
  | thresh =>
    simp only [Spec.holds] at hraw
    rw [hraw]
    cases r'.scores.evalScores E x with
    | error er => exact ⟨_, rfl⟩
    | ok v => exact ⟨_, rfl⟩
  | update =>
    simp only [Spec.holds] at hraw
    rw [hraw]
    cases r'.scores.evalScores E x with
    | error er => exact ⟨_, rfl⟩
    | ok v =>
      cases r'.thresh.evalThresh E ω with
      | error er => exact ⟨_, rfl⟩
      | ok v => exact ⟨_, rfl⟩

end Probayes
