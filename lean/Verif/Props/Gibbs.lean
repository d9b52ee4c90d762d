/-
C86: processes whose transition is a multivariate normal distribution, sampled one variable
at a time given the others.
-/
import Verif.Model.Gibbs
import Verif.Lemmas.GibbsConv
import Verif.Lemmas.PDOps
import Verif.Props.WalkField

namespace Probayes

open MeasureTheory ProbabilityTheory CondCov

/-! ### What is claimed -/

/-- The values `x` of the variables `names`, in this order. -/
def Spec.dictOf {n : ℕ} (names : Fin n → Str) (x : Fin n → ℝ) : Dict Str (Option ℝ) :=
  List.ofFn fun i => (names i, some (x i))

/-- The probability that the sampler, after the sample `l`, gives values in `A` as its `k`-th
further sample (the sample `l` itself for `k = 0`), the draws being independent and
uniform; `st` is the state of the process. -/
noncomputable def Spec.onward {n : ℕ} (names : Fin (n + 1) → Str)
    (P : Proc (Option ℕ) (Row (Dict Str (Option ℝ))) (Fin (n + 1) → ℝ)) (A : Set (Fin (n + 1) → ℝ)) :
    ℕ → Option ℕ → OPQR (Row (Dict Str (Option ℝ))) → ENNReal
  | 0, _, l => open Classical in if ∃ x ∈ A, l.p.map Row.val = some (Spec.dictOf names x) then 1 else 0
  | k + 1, st, l => Spec.means fun u =>
      Spec.onward names P A k (nextCore P (some l) u st).1 ((nextCore P (some l) u st).2.1.getD l)

/-- The probability that the `k`-th sample (the first for `k = 0`) of a new sampler is in
`A`. -/
noncomputable def Spec.sampled {n : ℕ} (names : Fin (n + 1) → Str)
    (P : Proc (Option ℕ) (Row (Dict Str (Option ℝ))) (Fin (n + 1) → ℝ)) (A : Set (Fin (n + 1) → ℝ)) (k : ℕ)
    (st : Option ℕ) : ENNReal :=
  Spec.means fun u => ((nextCore P none u st).2.1.map (Spec.onward names P A k (nextCore P none u st).1)).getD 0

/-- No variable is limited. -/
def Spec.Unlimited {n : ℕ} (c : CondCov n) : Prop := ∀ i, c.lims i = (⊥, ⊤)

/-! ### Dictionaries of values -/

theorem point_keys {n : ℕ} (names : Fin n → Str) (x : Fin n → ℝ) : (Spec.dictOf names x).keys = List.ofFn names := by
  simp [Spec.dictOf, Dict.keys, List.map_ofFn, Function.comp_def]

theorem set_eq_map {K V : Type} [DecidableEq K] {d : Dict K V} {k : K} {v : V} (hn : d.keys.Nodup) (hk : k ∈ d.keys) :
    d.set k v = d.map fun e => if e.1 = k then (e.1, v) else e := by
  induction d with
  | nil => simp at hk
  | cons e d ih =>
      obtain ⟨k', v'⟩ := e
      rw [Dict.keys_cons, List.nodup_cons] at hn
      by_cases h : k' = k
      · subst h
        simp only [Dict.set, if_true, List.map_cons]
        congr 1
        have : ∀ e ∈ d, (if e.1 = k' then (e.1, v) else e) = e := by
          intro e he
          have hmem : e.1 ∈ Dict.keys d := List.mem_map_of_mem he
          refine if_neg fun h => hn.1 ?_
          rw [← h]
          exact hmem
        rw [List.map_congr_left this, List.map_id']
      · have hk' : k ∈ Dict.keys d := by
          rw [Dict.keys_cons, List.mem_cons] at hk
          exact hk.resolve_left (Ne.symm h)
        simp only [Dict.set, if_neg h, List.map_cons, ih hn.2 hk']

theorem point_set {n : ℕ} {names : Fin n → Str} (hn : Function.Injective names) (x : Fin n → ℝ) (i : Fin n) (v : ℝ) :
    (Spec.dictOf names x).set (names i) (some v) = Spec.dictOf names (Function.update x i v) := by
  rw [set_eq_map (by rw [point_keys]; exact List.nodup_ofFn.mpr hn) (by rw [point_keys]; simp)]
  unfold Spec.dictOf
  rw [List.map_ofFn]
  congr 1
  funext j
  simp only [Function.comp_apply]
  by_cases h : j = i
  · subst h
    simp
  · rw [if_neg (fun h' => h (hn h')), Function.update_of_ne h]

theorem point_injective {n : ℕ} (names : Fin n → Str) : Function.Injective (Spec.dictOf names) := by
  intro x y h
  have := List.ofFn_injective h
  funext i
  simpa using congrFun this i

theorem inOrder_point {n : ℕ} {names : Fin n → Str} (hn : Function.Injective names) (x : Fin n → ℝ)
    (π : Equiv.Perm (Fin n)) :
    inOrder (List.ofFn names) (Spec.dictOf (names ∘ π) x) = .ok (Spec.dictOf names (x ∘ π.symm)) := by
  have hget : ∀ i, (Spec.dictOf (names ∘ π) x).get? (names i) = some (some (x (π.symm i))) := by
    intro i
    refine Dict.get?_of_mem ?_ ?_
    · rw [point_keys]
      exact List.nodup_ofFn.mpr (hn.comp π.injective)
    · rw [Spec.dictOf, List.mem_ofFn]
      exact ⟨π.symm i, by simp⟩
  have hok : inOrder (List.ofFn names) (Spec.dictOf (names ∘ π) x) =
      .ok ((List.ofFn names).map fun k => (k, ((Spec.dictOf (names ∘ π) x).get? k).getD none)) := by
    refine mapM_ok fun k hk => ?_
    rw [List.mem_ofFn] at hk
    obtain ⟨i, rfl⟩ := hk
    simp only [hget, Option.getD_some]
  rw [hok, List.map_ofFn]
  have hf : ((fun k => (k, ((Spec.dictOf (names ∘ π) x).get? k).getD none)) ∘ names : Fin n → Str × Option ℝ) =
      fun i => (names i, some ((x ∘ π.symm) i)) := by
    funext i
    simp only [Function.comp_apply, hget, Option.getD_some]
  rw [hf]
  rfl

theorem idxOf_point {K : Type} [DecidableEq K] {n : ℕ} {names : Fin n → K} (hn : Function.Injective names) (i : Fin n) :
    (List.ofFn names).idxOf (names i) = i := by
  have h := (List.nodup_ofFn.mpr hn).idxOf_getElem i (by simp)
  simpa using h

/-! ### One step -/

theorem allSome_some {n : ℕ} (x : Fin n → ℝ) : allSome (fun j => some (x j)) = some x := by
  simp [allSome]

/-- The place within the distribution function's range at the limits that a draw leads to. -/
noncomputable def place {n : ℕ} (Φ : EReal ≃o Set.Icc (0 : ℝ) 1) (c : CondCov n) (i : Fin (n + 1)) (u : ℝ) : ℝ :=
  (c.cdfs Φ i).1 + ((c.cdfs Φ i).2 - (c.cdfs Φ i).1) * u

theorem sampleCondCov_place {n : ℕ} (Φ : EReal ≃o Set.Icc (0 : ℝ) 1) (c : CondCov n)
    {names : Fin (n + 1) → Str} (hn : Function.Injective names) (u x : Fin (n + 1) → ℝ)
    (i : Fin (n + 1)) (hu : place Φ c i (u i) ∈ Set.Ioo (0 : ℝ) 1) :
    sampleCondCov Φ c u (Spec.dictOf names x) (names i) =
      some (c.mean i + c.shift i (fun j => x (i.succAbove j)) + c.stdv i * quant Φ (place Φ c i (u i))) := by
  have hidx : @List.idxOf Str instBEqOfDecidableEq (names i) (Spec.dictOf names x).keys = i := by
    rw [point_keys]
    exact idxOf_point hn i
  have hvals : ∀ j : Fin (n + 1), ((Spec.dictOf names x).vals[(j : ℕ)]?).join = some (x j) := by
    intro j
    rw [Spec.dictOf, Dict.vals, List.map_ofFn, List.getElem?_ofFn, dif_pos j.2]
    rfl
  have h : @List.idxOf Str instBEqOfDecidableEq (names i) (Spec.dictOf names x).keys < n + 1 := by rw [hidx]; exact i.2
  have hi : (⟨@List.idxOf Str instBEqOfDecidableEq (names i) (Spec.dictOf names x).keys, h⟩ : Fin (n + 1)) = i :=
    Fin.ext hidx
  unfold sampleCondCov
  rw [dif_pos h]
  simp only [hi, hvals, allSome_some]
  have hin : c.interp Φ i 0 (fun j => x (i.succAbove j)) (fun _ => u i) =
      [some ((c.mean i + c.shift i (fun j => x (i.succAbove j)) + c.stdv i * quant Φ (place Φ c i (u i)) : ℝ) : EReal)] := by
    unfold interp
    simp only [uniform, if_true]
    change [ppf Φ _ _ (place Φ c i (u i))] = _
    rw [ppf, dif_pos (Set.Ioo_subset_Icc_self hu), quant_coe Φ hu]
    norm_cast
  rw [hin]
  generalize c.mean i + c.shift i (fun j => x (i.succAbove j)) + c.stdv i * quant Φ (place Φ c i (u i)) = z
  simp only [EReal.coe_ne_bot, EReal.coe_ne_top, or_self, if_false, EReal.toReal_coe]

theorem cdfs_unlimited {n : ℕ} (Φ : EReal ≃o Set.Icc (0 : ℝ) 1) (c : CondCov n) (i : Fin (n + 1))
    (hl : c.lims i = (⊥, ⊤)) (hs : 0 < c.stdv i) : c.cdfs Φ i = (0, 1) := by
  have h1 : ((c.lims i).1 - (c.mean i : EReal)) / (c.stdv i : EReal) = ⊥ := by
    rw [hl]
    simp only [EReal.bot_sub]
    exact EReal.bot_div_of_pos_ne_top (by exact_mod_cast hs) (EReal.coe_ne_top _)
  have h2 : ((c.lims i).2 - (c.mean i : EReal)) / (c.stdv i : EReal) = ⊤ := by
    rw [hl]
    simp only [EReal.top_sub_coe]
    exact EReal.top_div_of_pos_ne_top (by exact_mod_cast hs) (EReal.coe_ne_top _)
  unfold cdfs
  rw [h1, h2, map_bot, map_top]
  rfl

/-- The variables that a step samples, and the cursor after it. -/
def due (n tsteps : ℕ) (st : Option ℕ) : List (Fin (n + 1)) × Option ℕ :=
  tfunBlock tsteps st (List.finRange (n + 1)) (n + 1)

theorem due_nodup (n tsteps : ℕ) (st : Option ℕ) : (due n tsteps st).1.Nodup := by
  unfold due tfunBlock
  split
  · exact List.nodup_finRange _
  · exact ((List.nodup_finRange _).sublist (List.drop_sublist _ _)).sublist (List.take_sublist _ _)

theorem updateKeys_place {n : ℕ} (Φ : EReal ≃o Set.Icc (0 : ℝ) 1) (c : CondCov n) {names : Fin (n + 1) → Str} (hn : Function.Injective names) (u : Fin (n + 1) → ℝ)
    (hu : ∀ i, place Φ c i (u i) ∈ Set.Ioo (0 : ℝ) 1) (w : List (Fin (n + 1))) (x : Fin (n + 1) → ℝ) :
    updateKeys (sampleCondCov Φ c u) (w.map names) (Spec.dictOf names x) =
      Spec.dictOf names (resampleBy Φ c (fun i => place Φ c i (u i)) w x) := by
  induction w generalizing x with
  | nil => rfl
  | cons i w ih =>
      simp only [List.map_cons, updateKeys, resampleBy]
      rw [sampleCondCov_place Φ c hn u x i (hu i), point_set hn, ih]
      rfl

theorem tfunBlock_map {K L : Type} (tsteps : ℕ) (st : Option ℕ) (keys : List K) (f : K → L) (m : ℕ) :
    tfunBlock tsteps st (keys.map f) m =
      ((tfunBlock tsteps st keys m).1.map f, (tfunBlock tsteps st keys m).2) := by
  unfold tfunBlock
  split
  · rfl
  · simp [List.map_take, List.map_drop]

theorem gibbsStep_place {n : ℕ} (Φ : EReal ≃o Set.Icc (0 : ℝ) 1) (c : CondCov n) {names : Fin (n + 1) → Str} (hn : Function.Injective names) (π : Equiv.Perm (Fin (n + 1)))
    (tsteps : ℕ) (tran : ℝ) (u : Fin (n + 1) → ℝ) (hu : ∀ i, place Φ c i (u i) ∈ Set.Ioo (0 : ℝ) 1) (x : Fin (n + 1) → ℝ)
    (st : Option ℕ) :
    gibbsStep names Φ c tsteps tran (Spec.dictOf (names ∘ π) x) u st = ((due n tsteps st).2,
      .ok ⟨Spec.dictOf names (resampleBy Φ c (fun i => place Φ c i (u i)) (due n tsteps st).1 x ∘ π.symm), .scalar tran⟩) := by
  have hb : tfunBlock tsteps st (Spec.dictOf (names ∘ π) x).keys (Spec.dictOf (names ∘ π) x).length =
      ((due n tsteps st).1.map (names ∘ π), (due n tsteps st).2) := by
    rw [point_keys, List.ofFn_eq_map, show (Spec.dictOf (names ∘ π) x).length = n + 1 by simp [Spec.dictOf], tfunBlock_map]
    rfl
  unfold gibbsStep evalTfun
  simp only [hb]
  rw [updateKeys_place Φ c (hn.comp π.injective) u hu, inOrder_point hn]
  rfl

/-- A sample at the values `d`. -/
def Spec.SitsAt (l : OPQR (Row (Dict Str (Option ℝ)))) (d : Dict Str (Option ℝ)) : Prop :=
  l.p.map Row.val = some d ∧ l.q.map Row.val = some d

theorem next_place {n : ℕ} (Φ : EReal ≃o Set.Icc (0 : ℝ) 1) (c : CondCov n) {names : Fin (n + 1) → Str} (hn : Function.Injective names) (π : Equiv.Perm (Fin (n + 1)))
    (tsteps : ℕ) (tran : ℝ) (prob : Dict Str (Option ℝ) → ℝ) (start : Dict Str (Option ℝ)) (u : Fin (n + 1) → ℝ)
    (hu : ∀ i, place Φ c i (u i) ∈ Set.Ioo (0 : ℝ) 1) (x : Fin (n + 1) → ℝ) (st : Option ℕ)
    (last : Option (OPQR (Row (Dict Str (Option ℝ)))))
    (h : match last with
      | none => start = Spec.dictOf (names ∘ π) x
      | some l => Spec.SitsAt l (Spec.dictOf (names ∘ π) x)) :
    (nextCore (gibbsProc names Φ c tsteps tran prob start) last u st).1 = (due n tsteps st).2 ∧
      ∃ l, (nextCore (gibbsProc names Φ c tsteps tran prob start) last u st).2.1 = some l ∧
        Spec.SitsAt l (Spec.dictOf names (resampleBy Φ c (fun i => place Φ c i (u i)) (due n tsteps st).1 x ∘ π.symm)) := by
  have hstep := gibbsStep_place Φ c hn π tsteps tran u hu x st
  cases last with
  | none =>
      simp only at h
      subst h
      simp only [nextCore, gibbsProc, sampleTran, gibbsOps, hstep, sampleFinish, judge, evalScores, evalUpdate, bind,
        Except.bind, pure, Except.pure]
      simp [Spec.SitsAt]
  | some l =>
      obtain ⟨o, p, q, r⟩ := l
      obtain ⟨h1, h2⟩ := h
      simp only at h1 h2
      obtain ⟨⟨qv, qp⟩, rfl, hq⟩ := Option.map_eq_some_iff.mp h2
      simp only at hq
      subst hq
      simp only [nextCore, gibbsProc, sampleTran, gibbsOps, hstep, sampleFinish, judge, evalScores, evalUpdate, bind,
        Except.bind, pure, Except.pure]
      simp [Spec.SitsAt, hstep]

theorem place_unlimited {n : ℕ} (Φ : EReal ≃o Set.Icc (0 : ℝ) 1) (c : CondCov n) (hl : Spec.Unlimited c)
    (hs : ∀ i, 0 < c.stdv i) (i : Fin (n + 1)) (u : ℝ) : place Φ c i u = u := by
  rw [place, cdfs_unlimited Φ c i (hl i) (hs i)]
  simp

theorem next_point {n : ℕ} (Φ : EReal ≃o Set.Icc (0 : ℝ) 1) (c : CondCov n) (hl : Spec.Unlimited c)
    (hs : ∀ i, 0 < c.stdv i) {names : Fin (n + 1) → Str} (hn : Function.Injective names) (π : Equiv.Perm (Fin (n + 1)))
    (tsteps : ℕ) (tran : ℝ) (prob : Dict Str (Option ℝ) → ℝ) (start : Dict Str (Option ℝ)) (u : Fin (n + 1) → ℝ)
    (hu : ∀ i, u i ∈ Set.Ioo (0 : ℝ) 1) (x : Fin (n + 1) → ℝ) (st : Option ℕ)
    (last : Option (OPQR (Row (Dict Str (Option ℝ)))))
    (h : match last with
      | none => start = Spec.dictOf (names ∘ π) x
      | some l => Spec.SitsAt l (Spec.dictOf (names ∘ π) x)) :
    (nextCore (gibbsProc names Φ c tsteps tran prob start) last u st).1 = (due n tsteps st).2 ∧
      ∃ l, (nextCore (gibbsProc names Φ c tsteps tran prob start) last u st).2.1 = some l ∧
        Spec.SitsAt l (Spec.dictOf names (resampleBy Φ c u (due n tsteps st).1 x ∘ π.symm)) := by
  have hp := place_unlimited Φ c hl hs
  have := next_place Φ c hn π tsteps tran prob start u (fun i => by rw [hp]; exact hu i) x st last h
  simpa only [hp] using this

/-! ### Many steps -/

/-- The variables that `k` steps sample. -/
def dues (n tsteps : ℕ) : ℕ → Option ℕ → List (Fin (n + 1))
  | 0, _ => []
  | k + 1, st => (due n tsteps st).1 ++ dues n tsteps k (due n tsteps st).2

theorem cube_Ioo (n : ℕ) : ∀ᵐ u ∂cubeLaw n, ∀ i, u i ∈ Set.Ioo (0 : ℝ) 1 := by
  rw [ae_all_iff]
  intro i
  have h : ∀ᵐ x ∂unitLaw, x ∈ Set.Ioo (0 : ℝ) 1 := by
    rw [unitLaw_Ioo]
    exact ae_restrict_mem measurableSet_Ioo
  rw [cubeLaw_pi]
  exact (Measure.quasiMeasurePreserving_eval _ i).ae h

theorem onward_eq {n : ℕ} {Φ : EReal ≃o Set.Icc (0 : ℝ) 1} (hΦ : Spec.IsNormal Φ) (c : CondCov n)
    (hl : Spec.Unlimited c) (hs : ∀ i, 0 < c.stdv i) {names : Fin (n + 1) → Str} (hn : Function.Injective names)
    (tsteps : ℕ) (tran : ℝ) (prob : Dict Str (Option ℝ) → ℝ) (start : Dict Str (Option ℝ))
    {A : Set (Fin (n + 1) → ℝ)} (hA : MeasurableSet A) (k : ℕ) : ∀ (st : Option ℕ)
      (l : OPQR (Row (Dict Str (Option ℝ)))) (x : Fin (n + 1) → ℝ), Spec.SitsAt l (Spec.dictOf names x) →
      Spec.onward names (gibbsProc names Φ c tsteps tran prob start) A k st l =
        resamples c (A.indicator 1) (dues n tsteps k st) x := by
  induction k with
  | zero =>
      intro st l x h
      simp only [Spec.onward, dues, resamples]
      by_cases hx : x ∈ A
      · rw [Set.indicator_of_mem hx]
        exact if_pos ⟨x, hx, h.1⟩
      · rw [Set.indicator_of_notMem hx]
        refine if_neg ?_
        rintro ⟨y, hy, h2⟩
        exact hx (point_injective names (Option.some.inj (h.1.symm.trans h2)) ▸ hy)
  | succ k ih =>
      intro st l x h
      have hm := resamples_measurable c (measurable_one.indicator hA : Measurable (A.indicator 1)) (dues n tsteps k (due n tsteps st).2)
      simp only [Spec.onward, dues, resamples_append]
      rw [← resampleBy_mean hΦ c hm _ (due_nodup n tsteps st)]
      unfold Spec.means
      refine lintegral_congr_ae ?_
      filter_upwards [cube_Ioo (n + 1)] with u hu
      obtain ⟨h1, l', h2, h3⟩ := next_point Φ c hl hs hn 1 tsteps tran prob start u hu x st (some l) (by exact h)
      rw [h1, h2, Option.getD_some]
      exact ih _ _ _ h3

theorem sampled_eq {n : ℕ} {Φ : EReal ≃o Set.Icc (0 : ℝ) 1} (hΦ : Spec.IsNormal Φ) (c : CondCov n)
    (hl : Spec.Unlimited c) (hs : ∀ i, 0 < c.stdv i) {names : Fin (n + 1) → Str} (hn : Function.Injective names)
    (π : Equiv.Perm (Fin (n + 1))) (tsteps : ℕ) (tran : ℝ) (prob : Dict Str (Option ℝ) → ℝ)
    {A : Set (Fin (n + 1) → ℝ)} (hA : MeasurableSet A) (k : ℕ) (st : Option ℕ) (x : Fin (n + 1) → ℝ) :
    Spec.sampled names (gibbsProc names Φ c tsteps tran prob (Spec.dictOf (names ∘ π) x)) A k st =
      ∫⁻ u, resamples c (A.indicator 1) (dues n tsteps k (due n tsteps st).2)
        (resampleBy Φ c u (due n tsteps st).1 x ∘ π.symm) ∂cubeLaw (n + 1) := by
  unfold Spec.sampled Spec.means
  refine lintegral_congr_ae ?_
  filter_upwards [cube_Ioo (n + 1)] with u hu
  obtain ⟨h1, l', h2, h3⟩ := next_point Φ c hl hs hn π tsteps tran prob _ u hu x st none rfl
  simp only [h1, h2, Option.map_some, Option.getD_some]
  exact onward_eq hΦ c hl hs hn tsteps tran prob _ hA k _ _ _ h3

theorem sampled_eq' {n : ℕ} {Φ : EReal ≃o Set.Icc (0 : ℝ) 1} (hΦ : Spec.IsNormal Φ) (c : CondCov n)
    (hl : Spec.Unlimited c) (hs : ∀ i, 0 < c.stdv i) {names : Fin (n + 1) → Str} (hn : Function.Injective names)
    (tsteps : ℕ) (tran : ℝ) (prob : Dict Str (Option ℝ) → ℝ)
    {A : Set (Fin (n + 1) → ℝ)} (hA : MeasurableSet A) (k : ℕ) (st : Option ℕ) (x : Fin (n + 1) → ℝ) :
    Spec.sampled names (gibbsProc names Φ c tsteps tran prob (Spec.dictOf names x)) A k st =
      resamples c (A.indicator 1) (dues n tsteps (k + 1) st) x := by
  have hm := resamples_measurable c (measurable_one.indicator hA : Measurable (A.indicator 1)) (dues n tsteps k (due n tsteps st).2)
  rw [dues, resamples_append, ← resampleBy_mean hΦ c hm _ (due_nodup n tsteps st)]
  exact sampled_eq hΦ c hl hs hn 1 tsteps tran prob hA k st x

/-! ### The order in which variables are sampled -/

/-- The cursor after `k` steps. -/
def later (n tsteps : ℕ) : ℕ → Option ℕ → Option ℕ
  | 0, st => st
  | k + 1, st => later n tsteps k (due n tsteps st).2

theorem dues_add (n tsteps j k : ℕ) (st : Option ℕ) :
    dues n tsteps (j + k) st = dues n tsteps j st ++ dues n tsteps k (later n tsteps j st) := by
  induction j generalizing st with
  | zero => simp [dues, later]
  | succ j ih =>
      rw [Nat.succ_add]
      simp only [dues, later, ih, List.append_assoc]

theorem later_add (n tsteps j k : ℕ) (st : Option ℕ) :
    later n tsteps (j + k) st = later n tsteps k (later n tsteps j st) := by
  induction j generalizing st with
  | zero => simp [later]
  | succ j ih =>
      rw [Nat.succ_add]
      simp only [later, ih]

/-- The next step begins with the first variable. -/
def Begins (tsteps : ℕ) (st : Option ℕ) : Prop := tsteps = 0 ∨ st.getD 0 = 0

theorem dues_rest (n : ℕ) {tsteps : ℕ} (ht : 0 < tsteps) (k : ℕ) : ∀ m, k * tsteps + m < n + 1 →
    n + 1 ≤ (k + 1) * tsteps + m → ∀ st : Option ℕ, st.getD 0 = m →
      dues n tsteps (k + 1) st = (List.finRange (n + 1)).drop m ∧ later n tsteps (k + 1) st = some 0 := by
  induction k with
  | zero =>
      intro m h1 h2 st hst
      simp only [dues, later, due, tfunBlock, if_neg ht.ne', hst, List.append_nil]
      rw [if_pos (by omega), List.take_of_length_le (by simp; omega)]
      exact ⟨rfl, rfl⟩
  | succ k ih =>
      intro m h1 h2 st hst
      have h3 : ¬ (n + 1 ≤ m + tsteps) := by
        rw [Nat.succ_mul] at h1
        omega
      have h4 := ih (m + tsteps) (by rw [Nat.succ_mul] at h1; omega) (by rw [Nat.succ_mul (k + 1)] at h2; omega)
        (some (m + tsteps)) rfl
      have hd : due n tsteps st = (((List.finRange (n + 1)).drop m).take tsteps, some (m + tsteps)) := by
        simp only [due, tfunBlock, if_neg ht.ne', hst, if_neg h3]
      constructor
      · rw [dues, hd]
        simp only
        rw [h4.1, ← List.drop_drop, List.take_append_drop]
      · rw [later, hd]
        exact h4.2

/-- From a cursor at the first variable, some number of steps samples all variables in turn
and returns the cursor. -/
theorem dues_sweep (n tsteps : ℕ) : ∃ p > 0, ∀ st, Begins tsteps st →
    dues n tsteps p st = List.finRange (n + 1) ∧ Begins tsteps (later n tsteps p st) := by
  rcases Nat.eq_zero_or_pos tsteps with ht | ht
  · subst ht
    refine ⟨1, one_pos, fun st _ => ?_⟩
    simp [dues, due, tfunBlock, Begins]
  · refine ⟨n / tsteps + 1, Nat.succ_pos _, fun st hst => ?_⟩
    have h0 : st.getD 0 = 0 := hst.resolve_left ht.ne'
    have h1 := Nat.div_mul_le_self n tsteps
    have h2 := Nat.lt_div_mul_add (a := n) ht
    obtain ⟨h3, h4⟩ := dues_rest n ht (n / tsteps) 0 (by omega) (by rw [Nat.succ_mul]; omega) st h0
    exact ⟨by simpa using h3, by rw [h4]; exact Or.inr rfl⟩

theorem later_begins (n tsteps : ℕ) (st : Option ℕ) : ∃ r, Begins tsteps (later n tsteps r st) := by
  rcases Nat.eq_zero_or_pos tsteps with ht | ht
  · exact ⟨0, Or.inl ht⟩
  · by_cases hm : n + 1 ≤ st.getD 0
    · refine ⟨1, Or.inr ?_⟩
      simp only [later, due, tfunBlock, if_neg ht.ne']
      rw [if_pos (by omega)]
      rfl
    · have h1 := Nat.div_mul_le_self (n - st.getD 0) tsteps
      have h2 := Nat.lt_div_mul_add (a := n - st.getD 0) ht
      obtain ⟨_, h4⟩ := dues_rest n ht ((n - st.getD 0) / tsteps) (st.getD 0) (by omega)
        (by rw [Nat.succ_mul]; omega) st rfl
      exact ⟨_, by rw [h4]; exact Or.inr rfl⟩

theorem dues_sweeps {n tsteps p : ℕ} (hp : ∀ st, Begins tsteps st →
    dues n tsteps p st = List.finRange (n + 1) ∧ Begins tsteps (later n tsteps p st)) (q : ℕ) :
    ∀ st, Begins tsteps st → dues n tsteps (q * p) st = sweeps n q ∧ Begins tsteps (later n tsteps (q * p) st) := by
  induction q with
  | zero => intro st h; simpa [dues, later, sweeps] using h
  | succ q ih =>
      intro st h
      obtain ⟨h1, h2⟩ := ih st h
      obtain ⟨h3, h4⟩ := hp _ h2
      rw [Nat.succ_mul, dues_add, later_add, h1, h3, sweeps_succ]
      exact ⟨rfl, h4⟩

/-! ### C86 -/

/-- C86: a sampler by a multivariate normal distribution without limits keeps it: if the start is
drawn from it, so is every sample, whatever the number of variables sampled at a time and
wherever the process has got to. -/
theorem C86_keeps {n : ℕ} {Φ : EReal ≃o Set.Icc (0 : ℝ) 1} (hΦ : Spec.IsNormal Φ) (c : CondCov n)
    (hc : Spec.IsCov c.cov) (hl : Spec.Unlimited c) {names : Fin (n + 1) → Str} (hn : Function.Injective names)
    (tsteps : ℕ) (tran : ℝ) (prob : Dict Str (Option ℝ) → ℝ) (st : Option ℕ) (k : ℕ) (A : Set (Fin (n + 1) → ℝ))
    (hA : MeasurableSet A) :
    ∫⁻ x, Spec.sampled names (gibbsProc names Φ c tsteps tran prob (Spec.dictOf names x)) A k st
      ∂Spec.normal c.mean c.cov = Spec.normal c.mean c.cov A := by
  simp only [sampled_eq' hΦ c hl (fun i => (stdv_sq c hc i).1) hn tsteps tran prob hA k st]
  rw [resamples_keeps c hc (measurable_one.indicator hA), lintegral_indicator_one hA]

/-- C86: from any start, given in any order, the samples tend to it in total variation. -/
theorem C86_converges {n : ℕ} {Φ : EReal ≃o Set.Icc (0 : ℝ) 1} (hΦ : Spec.IsNormal Φ) (c : CondCov n)
    (hc : Spec.IsCov c.cov) (hl : Spec.Unlimited c) {names : Fin (n + 1) → Str} (hn : Function.Injective names)
    (tsteps : ℕ) (tran : ℝ) (prob : Dict Str (Option ℝ) → ℝ) (st : Option ℕ) (x : Fin (n + 1) → ℝ)
    (π : Equiv.Perm (Fin (n + 1))) (ε : ℝ) (hε : 0 < ε) :
    ∃ K, ∀ k ≥ K, ∀ A, MeasurableSet A →
      |(Spec.sampled names (gibbsProc names Φ c tsteps tran prob (Spec.dictOf (names ∘ π) x)) A k st).toReal -
        (Spec.normal c.mean c.cov).real A| ≤ ε := by
  have hs : ∀ i, 0 < c.stdv i := fun i => (stdv_sq c hc i).1
  have hone : IsProbabilityMeasure (cubeLaw (n + 1)) := by
    rw [cubeLaw_pi]
    infer_instance
  set y : (Fin (n + 1) → ℝ) → Fin (n + 1) → ℝ := fun u => resampleBy Φ c u (due n tsteps st).1 x ∘ π.symm with hy
  have hym : Measurable y := by
    refine measurable_pi_iff.mpr fun i => ?_
    exact (measurable_pi_apply (π.symm i)).comp
      ((resampleBy_measurable Φ c (due n tsteps st).1).comp (measurable_id.prodMk measurable_const))
  have hμ : IsProbabilityMeasure ((cubeLaw (n + 1)).map y) := Measure.isProbabilityMeasure_map hym.aemeasurable
  obtain ⟨r, hr⟩ := later_begins n tsteps (due n tsteps st).2
  obtain ⟨p, hp0, hp⟩ := dues_sweep n tsteps
  obtain ⟨M, hM⟩ := resamples_converge c hc (dues n tsteps r (due n tsteps st).2) ((cubeLaw (n + 1)).map y)
    (ENNReal.ofReal ε) (by simpa using hε)
  refine ⟨r + M * p, fun k hk A hA => ?_⟩
  obtain ⟨q, s, hqs, hq⟩ : ∃ q s, k = r + (q * p + s) ∧ M ≤ q := by
    refine ⟨(k - r) / p, (k - r) % p, ?_, ?_⟩
    · have := Nat.div_add_mod' (k - r) p
      omega
    · rw [Nat.le_div_iff_mul_le hp0]
      omega
  have hd : dues n tsteps k (due n tsteps st).2 = dues n tsteps r (due n tsteps st).2 ++ sweeps n q ++
      dues n tsteps s (later n tsteps (q * p) (later n tsteps r (due n tsteps st).2)) := by
    rw [hqs, dues_add, dues_add, (dues_sweeps hp q _ hr).1, List.append_assoc]
  have hAm : Measurable (A.indicator (1 : (Fin (n + 1) → ℝ) → ENNReal)) := measurable_one.indicator hA
  have hsam : Spec.sampled names (gibbsProc names Φ c tsteps tran prob (Spec.dictOf (names ∘ π) x)) A k st =
      ∫⁻ v, resamples c (A.indicator 1) (dues n tsteps k (due n tsteps st).2) v ∂(cubeLaw (n + 1)).map y := by
    rw [sampled_eq hΦ c hl hs hn π tsteps tran prob hA k st x, lintegral_map (resamples_measurable c hAm _) hym]
  obtain ⟨h1, h2⟩ := hM q hq (dues n tsteps s (later n tsteps (q * p) (later n tsteps r (due n tsteps st).2)))
    (A.indicator 1) hAm (fun x => Set.indicator_le_self' (fun _ _ => zero_le_one) x)
  rw [← hd, ← hsam, lintegral_indicator_one hA] at h1 h2
  have hN : Spec.normal c.mean c.cov A ≠ ⊤ := measure_ne_top _ _
  have hSn : Spec.sampled names (gibbsProc names Φ c tsteps tran prob (Spec.dictOf (names ∘ π) x)) A k st ≠ ⊤ :=
    ne_top_of_le_ne_top (by finiteness) h1
  rw [abs_sub_le_iff]
  constructor
  · have := ENNReal.toReal_mono (by finiteness) h1
    rw [ENNReal.toReal_add hN (by finiteness), ENNReal.toReal_ofReal hε.le] at this
    rw [Measure.real]
    linarith
  · have := ENNReal.toReal_mono (by finiteness) h2
    rw [ENNReal.toReal_add hSn (by finiteness), ENNReal.toReal_ofReal hε.le] at this
    rw [Measure.real]
    linarith

/-- C86: a draw of exactly nought gives no finite sample. -/
theorem C86_zero_draw {n : ℕ} (Φ : EReal ≃o Set.Icc (0 : ℝ) 1) (c : CondCov n) (hc : Spec.IsCov c.cov)
    (hl : Spec.Unlimited c) {names : Fin (n + 1) → Str} (hn : Function.Injective names) (u x : Fin (n + 1) → ℝ)
    (i : Fin (n + 1)) (hu : u i = 0) : sampleCondCov Φ c u (Spec.dictOf names x) (names i) = none := by
  have hs := (stdv_sq c hc i).1
  have hidx : @List.idxOf Str instBEqOfDecidableEq (names i) (Spec.dictOf names x).keys = i := by
    rw [point_keys]
    exact idxOf_point hn i
  have hvals : ∀ j : Fin (n + 1), ((Spec.dictOf names x).vals[(j : ℕ)]?).join = some (x j) := by
    intro j
    rw [Spec.dictOf, Dict.vals, List.map_ofFn, List.getElem?_ofFn, dif_pos j.2]
    rfl
  have h : @List.idxOf Str instBEqOfDecidableEq (names i) (Spec.dictOf names x).keys < n + 1 := by rw [hidx]; exact i.2
  have hi : (⟨@List.idxOf Str instBEqOfDecidableEq (names i) (Spec.dictOf names x).keys, h⟩ : Fin (n + 1)) = i :=
    Fin.ext hidx
  unfold sampleCondCov
  rw [dif_pos h]
  simp only [hi, hvals, allSome_some]
  have hin : c.interp Φ i 0 (fun j => x (i.succAbove j)) (fun _ => u i) = [some ⊥] := by
    unfold interp
    simp only [uniform, if_true, hu]
    have h0 : (c.cdfs Φ i).1 + ((c.cdfs Φ i).2 - (c.cdfs Φ i).1) * 0 = 0 := by
      rw [cdfs_unlimited Φ c i (hl i) hs]; simp
    rw [h0, ppf, dif_pos (by simp)]
    have : (⟨0, by simp⟩ : Set.Icc (0 : ℝ) 1) = ⊥ := rfl
    rw [this, map_bot, EReal.coe_mul_bot_of_pos hs, EReal.add_bot]
  rw [hin]
  simp

/-- C86: and while the value of one variable is not finite, no other is sampled as finite. -/
theorem C86_lost {K : Type} [DecidableEq K] {n : ℕ} (Φ : EReal ≃o Set.Icc (0 : ℝ) 1) (c : CondCov n) {names : Fin (n + 1) → K}
    (hn : Function.Injective names) (u : Fin (n + 1) → ℝ) (x : Fin (n + 1) → Option ℝ)
    (i j : Fin (n + 1)) (hij : i ≠ j) (hj : x j = none) :
    sampleCondCov Φ c u (List.ofFn fun i => (names i, x i)) (names i) = none := by
  have hkeys : Dict.keys (List.ofFn fun i => (names i, x i)) = List.ofFn names := by
    rw [Dict.keys, List.map_ofFn]; rfl
  have hidx : (Dict.keys (List.ofFn fun i => (names i, x i))).idxOf (names i) = i := by
    rw [hkeys]
    exact idxOf_point hn i
  have hvals : ∀ j : Fin (n + 1), ((Dict.vals (List.ofFn fun i => (names i, x i)))[(j : ℕ)]?).join = x j := by
    intro j
    rw [Dict.vals, List.map_ofFn, List.getElem?_ofFn, dif_pos j.2]
    rfl
  have h : (Dict.keys (List.ofFn fun i => (names i, x i))).idxOf (names i) < n + 1 := by rw [hidx]; exact i.2
  have hi : (⟨(Dict.keys (List.ofFn fun i => (names i, x i))).idxOf (names i), h⟩ : Fin (n + 1)) = i :=
    Fin.ext hidx
  obtain ⟨k, rfl⟩ := Fin.exists_succAbove_eq (Ne.symm hij)
  have hall : allSome (fun k => x (i.succAbove k)) = none := by
    unfold allSome
    rw [dif_neg]
    intro hx
    simpa [hj] using hx k
  unfold sampleCondCov
  rw [dif_pos h]
  simp only [hi, hvals, hall]

end Probayes
