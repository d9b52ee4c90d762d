/-
Properties C40 (component-wise transitions), C42 (independent fields multiply),
C57 (default transition probability).
-/
import Verif.Model.RF
import Verif.Props.PScalesProd
import Verif.Props.Uniform
import Mathlib.Analysis.SpecialFunctions.Log.ENNRealLogExp
import Mathlib.Analysis.Complex.ExponentialBounds

namespace Probayes

/-! ### C40 -/

section C40

variable {K V : Type} [DecidableEq K]

/-- C40 full claim: whenever each of the evaluations is given a dictionary of the
field's `n` variables, `m * ceil(n/t)` successive evaluations update every
variable exactly `m` times. -/
def C40_claim : Prop :=
  ∀ (keys : List String) (t m : ℕ)
    (es : List (Dict String ℕ × (Dict String ℕ → String → ℕ))), keys.Nodup → 0 < t →
    (∀ e ∈ es, (e.1.keys).Perm keys) → es.length = m * ((keys.length + t - 1) / t) →
    ∀ k ∈ keys, (tfunRun t none es).2.count k = m

/-- C40 fails: the keys are taken in the order of the dictionary passed in, so
evaluating at `{x, y}` and then at `{y, x}` updates `x` twice and `y` never. -/
theorem C40_claim_fails : ¬ C40_claim := by
  intro h
  have := h ["x", "y"] 1 1
    [([("x", 0), ("y", 0)], fun _ _ => 1), ([("y", 0), ("x", 1)], fun _ _ => 1)]
    (by decide) (by decide) (by
      intro e he
      simp only [List.mem_cons, List.not_mem_nil, or_false] at he
      rcases he with rfl | rfl
      · exact List.Perm.refl _
      · exact List.Perm.swap _ _ _) (by decide) "y" (by decide)
  revert this
  decide

theorem tfunRun_append (t : ℕ) (c : Option ℕ) (es es' : List (Dict K V × (Dict K V → K → V))) :
    tfunRun t c (es ++ es') =
      ((tfunRun t (tfunRun t c es).1 es').1,
        (tfunRun t c es).2 ++ (tfunRun t (tfunRun t c es).1 es').2) := by
  induction es generalizing c with
  | nil => simp [tfunRun]
  | cons e es ih => obtain ⟨v, f⟩ := e; simp [tfunRun, ih, List.append_assoc]

omit [DecidableEq K] in
theorem keys_length (d : Dict K V) : d.keys.length = d.length := by simp [Dict.keys]

/-- Within a sweep: after `j` evaluations the first `j * t` keys have been
updated. -/
theorem tfunRun_prefix (keys : List K) (t : ℕ) (ht : 0 < t) (c : Option ℕ) (hc : c.getD 0 = 0)
    (j : ℕ) : ∀ (es : List (Dict K V × (Dict K V → K → V))),
    (∀ e ∈ es, e.1.keys = keys) → es.length = j → (j - 1) * t < keys.length ∨ j = 0 →
    (tfunRun t c es).2 = keys.take (j * t) ∧
      (tfunRun t c es).1.getD 0 = if keys.length ≤ j * t ∧ 0 < j then 0 else j * t := by
  induction j with
  | zero =>
      intro es _ hl _
      rw [List.length_eq_zero_iff] at hl; subst hl
      simp [tfunRun, hc]
  | succ j ih =>
      intro es hk hl hj
      obtain ⟨es', e, rfl⟩ : ∃ es' e, es = es' ++ [e] := by
        have : es ≠ [] := by rintro rfl; simp at hl
        exact ⟨es.dropLast, es.getLast this, (List.dropLast_append_getLast this).symm⟩
      have hj' : j * t < keys.length := by
        rcases hj with hj | hj
        · simpa using hj
        · omega
      obtain ⟨h1, h2⟩ := ih es' (fun e he => hk e (by simp [he])) (by simpa using hl)
        (by
          by_cases h0 : j = 0
          · exact Or.inr h0
          · exact Or.inl (lt_of_le_of_lt (Nat.mul_le_mul_right _ (by omega)) hj'))
      rw [if_neg (by omega)] at h2
      obtain ⟨v, f⟩ := e
      have hv : v.keys = keys := hk (v, f) (by simp)
      have hvl : v.length = keys.length := by rw [← hv, keys_length]
      rw [tfunRun_append]
      simp only [tfunRun, evalTfun, tfunBlock, if_neg ht.ne', h1, h2, hv, hvl, List.append_nil,
        Option.getD_some]
      have e1 : (j + 1) * t = j * t + t := by ring
      refine ⟨?_, ?_⟩
      · rw [e1, List.take_add]
      · rw [e1]
        by_cases hh : keys.length ≤ j * t + t <;> simp [hh]

/-- C40: when the variables come in the same order in every evaluation, `m` sweeps
of `ceil(n/t)` evaluations call the transition function on the variables in that
order, `m` times over, and leave the cursor at the start; every variable is
updated exactly `m` times.  This holds whatever values and random outcomes are
met on the way. -/
theorem C40_sweeps_partial (keys : List K) (hn : keys.Nodup) (t : ℕ) (ht : 0 < t)
    (m : ℕ) : ∀ (c : Option ℕ), c.getD 0 = 0 →
    ∀ (es : List (Dict K V × (Dict K V → K → V))),
    (∀ e ∈ es, e.1.keys = keys) → es.length = m * ((keys.length + t - 1) / t) →
    (tfunRun t c es).2 = (List.replicate m keys).flatten ∧
      (tfunRun t c es).1.getD 0 = 0 ∧
      ∀ k ∈ keys, (tfunRun t c es).2.count k = m := by
  have key : ∀ (c : Option ℕ), c.getD 0 = 0 →
      ∀ (es : List (Dict K V × (Dict K V → K → V))),
      (∀ e ∈ es, e.1.keys = keys) → es.length = m * ((keys.length + t - 1) / t) →
      (tfunRun t c es).2 = (List.replicate m keys).flatten ∧
        (tfunRun t c es).1.getD 0 = 0 := by
    induction m with
    | zero =>
        intro c hc es _ hl
        rw [Nat.zero_mul, List.length_eq_zero_iff] at hl; subst hl
        simp [tfunRun, hc]
    | succ m ih =>
        intro c hc es hk hl
        set q := (keys.length + t - 1) / t with hq
        obtain ⟨a, b, rfl, ha, hb⟩ : ∃ a b, es = a ++ b ∧ a.length = q ∧ b.length = m * q := by
          refine ⟨es.take q, es.drop q, (List.take_append_drop _ _).symm, ?_, ?_⟩
          · rw [List.length_take, hl, Nat.succ_mul]; omega
          · rw [List.length_drop, hl, Nat.succ_mul]; omega
        have hqt : keys.length ≤ q * t := by
          have h3 := Nat.div_add_mod (keys.length + t - 1) t
          have h4 := Nat.mod_lt (keys.length + t - 1) ht
          rw [← hq, Nat.mul_comm] at h3
          omega
        obtain ⟨h1, h2⟩ := tfunRun_prefix keys t ht c hc q a (fun e he => hk e (by simp [he])) ha
          (by
            by_cases h0 : q = 0
            · exact Or.inr h0
            · left
              have h3 := Nat.div_mul_le_self (keys.length + t - 1) t
              rw [← hq] at h3
              have : (q - 1) * t + t = q * t := by
                rw [← Nat.succ_mul]; congr 1; omega
              omega)
        have h2' : (tfunRun t c a).1.getD 0 = 0 := by
          rw [h2]
          by_cases h0 : 0 < q
          · rw [if_pos ⟨hqt, h0⟩]
          · have : q = 0 := by omega
            simp [this]
        obtain ⟨h3, h4⟩ := ih _ h2' b (fun e he => hk e (by simp [he])) hb
        rw [tfunRun_append]
        refine ⟨?_, h4⟩
        simp only [h1, h3]
        rw [List.take_of_length_le hqt, List.replicate_succ, List.flatten_cons]
  intro c hc es hk hl
  obtain ⟨h1, h2⟩ := key c hc es hk hl
  refine ⟨h1, h2, ?_⟩
  intro k hkm
  rw [h1, List.count_flatten]
  simp [List.count_eq_one_of_mem hn hkm]

/-- C40: the `j`-th evaluation of a sweep (counting from 0) updates the variables
at positions `j*t ... j*t + t - 1`. -/
theorem C40_block_partial (keys : List K) (t : ℕ) (ht : 0 < t)
    (es : List (Dict K V × (Dict K V → K → V))) (v : Dict K V) (f : Dict K V → K → V)
    (hk : ∀ e ∈ es, e.1.keys = keys) (hv : v.keys = keys) (hj : es.length * t < keys.length) :
    (evalTfun f t (tfunRun t none es).1 v).called = (keys.drop (es.length * t)).take t := by
  obtain ⟨_, h2⟩ := tfunRun_prefix keys t ht none rfl es.length es hk rfl
    (by
      by_cases h0 : es.length = 0
      · exact Or.inr h0
      · exact Or.inl (lt_of_le_of_lt (Nat.mul_le_mul_right _ (by omega)) hj))
  rw [if_neg (by omega)] at h2
  simp [evalTfun, tfunBlock, ht.ne', h2, hv]

theorem updateKeys_spec (f : Dict K V → K → V) (ks : List K) (hks : ks.Nodup) :
    ∀ d : Dict K V, (∀ k ∈ ks, k ∈ d.keys) →
    (updateKeys f ks d).keys = d.keys ∧
    (∀ k, k ∉ ks → (updateKeys f ks d).get? k = d.get? k) ∧
    (∀ k ∈ ks, ∃ d' : Dict K V, d'.keys = d.keys ∧ (∀ k', k' ∉ ks → d'.get? k' = d.get? k') ∧
      d'.get? k = d.get? k ∧
      (updateKeys f ks d).get? k = some (f d' k)) := by
  induction ks with
  | nil => intro d _; simp [updateKeys]
  | cons a ks ih =>
      intro d hd
      rw [List.nodup_cons] at hks
      have hkeys : (d.set a (f d a)).keys = d.keys := by
        rw [Dict.keys_set, if_pos (hd a (by simp))]
      obtain ⟨h1, h2, h3⟩ := ih hks.2 (d.set a (f d a))
        (fun k hk => by rw [hkeys]; exact hd k (by simp [hk]))
      refine ⟨by rw [updateKeys, h1, hkeys], ?_, ?_⟩
      · intro k hk
        simp only [List.mem_cons, not_or] at hk
        rw [updateKeys, h2 k hk.2, Dict.get?_set, if_neg (Ne.symm hk.1)]
      · intro k hk
        rcases List.mem_cons.mp hk with rfl | hk
        · refine ⟨d, rfl, fun _ _ => rfl, rfl, ?_⟩
          rw [updateKeys, h2 k hks.1, Dict.get?_set, if_pos rfl]
        · obtain ⟨d', e1, e2, e3, e4⟩ := h3 k hk
          have hne : a ≠ k := by rintro rfl; exact hks.1 hk
          refine ⟨d', by rw [e1, hkeys], ?_, ?_, by rw [updateKeys, e4]⟩
          · intro k' hk'
            simp only [List.mem_cons, not_or] at hk'
            rw [e2 k' hk'.2, Dict.get?_set, if_neg (Ne.symm hk'.1)]
          · rw [e3, Dict.get?_set, if_neg hne]

/-- C40: one evaluation changes no variable outside its block, keeps the
variables and their order, and gives each variable of the block the value of the
transition function at a state that agrees with the predecessor outside the block
and in that variable. -/
theorem C40_update (f : Dict K V → K → V) (t : ℕ) (c : Option ℕ) (d : Dict K V)
    (hn : d.keys.Nodup) :
    (evalTfun f t c d).succ.keys = d.keys ∧
    (∀ k, k ∉ (evalTfun f t c d).called → (evalTfun f t c d).succ.get? k = d.get? k) ∧
    (∀ k ∈ (evalTfun f t c d).called, ∃ d' : Dict K V, d'.keys = d.keys ∧
      (∀ k', k' ∉ (evalTfun f t c d).called → d'.get? k' = d.get? k') ∧
      d'.get? k = d.get? k ∧
      (evalTfun f t c d).succ.get? k = some (f d' k)) := by
  have hsub : (tfunBlock t c d.keys d.length).1.Sublist d.keys := by
    unfold tfunBlock
    split
    · exact List.Sublist.refl _
    · exact (List.take_sublist _ _).trans (List.drop_sublist _ _)
  exact updateKeys_spec f _ (hn.sublist hsub) d (fun k hk => hsub.subset hk)

/-- C40: without a step size every evaluation updates all variables. -/
theorem C40_no_steps (f : Dict K V → K → V) (c : Option ℕ) (d : Dict K V) :
    (evalTfun f 0 c d).called = d.keys ∧ (evalTfun f 0 c d).cursor = c := by
  simp [evalTfun, tfunBlock]

/-- C40 does not extend to explicit joint conditionals: for a joint key such as
"x,y" (not itself a variable) an evaluation either raises or leaves every
variable as it was and adds a spurious entry. -/
theorem C40_explicit_joint_fails (f : Dict K V → K → TOut K V) (k : K) (d : Dict K V)
    (hk : k ∉ d.keys) :
    Raises (explicitUpdate f [k] d) ∨
      ∃ d', explicitUpdate f [k] d = .ok d' ∧ d'.keys = d.keys ++ [k] ∧
        ∀ k' ∈ d.keys, d'.get? k' = d.get? k' := by
  have hset : ∀ v, (d.set k v).keys = d.keys ++ [k] ∧
      ∀ k' ∈ d.keys, (d.set k v).get? k' = d.get? k' := by
    intro v
    refine ⟨by rw [Dict.keys_set, if_neg hk], ?_⟩
    intro k' hk'
    rw [Dict.get?_set, if_neg (by rintro rfl; exact hk hk')]
  rcases hf : f d k with v | m
  · exact Or.inr ⟨d.set k v, by simp [explicitUpdate, explicitStep, hf], hset v⟩
  · rcases hm : m.get? k with _ | v
    · exact Or.inl ⟨.assertion, by simp [explicitUpdate, explicitStep, hf, hm]⟩
    · exact Or.inr ⟨d.set k v, by simp [explicitUpdate, explicitStep, hf, hm], hset v⟩

/-- Non-vacuity: three variables, blocks of two, two sweeps. -/
example : tfunRun 2 none
    (List.replicate 4 (([("x", 0), ("y", 1), ("z", 2)] : Dict String ℕ), fun _ _ => 7)) =
    (some 0, ["x", "y", "z", "x", "y", "z"]) := by decide

end C40

/-! ### C42 -/

/-- C42 full claim: whatever the (valid) scales of the variables, the number and
scale assigned by a field without joint probability denote the product of the
variables' denoted probabilities. -/
def C42_claim : Prop :=
  ∀ (xs : List ℝ) (ss : List PScale), xs ≠ [] → xs.length = ss.length →
    Spec.Evaluates (ss.map PScale.spec) ss → (∀ s ∈ ss, Spec.Valid s) → Spec.Loggable xs ss →
    ∃ y s, rfEvalProb xs (ss.map PScale.spec) = .ok (y, s) ∧
      Spec.value s y = (List.zipWith Spec.value ss xs).prod

theorem prodRule_default (xs : List ℝ) (l : List PSpec) (S : PScale)
    (h : prodPscale l none = .ok (some S)) :
    prodRule xs l none (some S.spec) = prodRule xs l none none := by
  have h' : prodPscale l (some (l.any PSpec.iscomplex)) = .ok (some S) := by
    rw [← h]; simp [prodPscale]
  simp only [prodRule, Option.getD_none, Option.getD_some, h', bind, Except.bind]

theorem truthy_spec (S : PScale) (hS : S.spec.truthy = false) (hv : Spec.Valid S) :
    S = complexZero := by
  rcases S with c | ⟨re, im⟩
  · simp [PScale.spec, PSpec.truthy] at hS
    simp [Spec.Valid, hS] at hv
  · simp [PScale.spec, PSpec.truthy] at hS
    simp [complexZero, hS]

theorem orProdPscale_self (S : PScale) (l : List PSpec) (h : prodPscale l none = .ok (some S)) :
    orProdPscale S.spec l = .ok S.spec := by
  unfold orProdPscale
  split
  · rfl
  · rw [h]

theorem rvProdRule_self (xs : List ℝ) (l : List PSpec) (S : PScale)
    (h : prodPscale l none = .ok (some S)) :
    rvProdRule xs l S.spec = prodRule xs l none none := by
  rw [rvProdRule, orProdPscale_self S l h]
  exact prodRule_default xs l S h

theorem prod_factor_pos (ss : List PScale) (hv : ∀ s ∈ ss, Spec.Valid s) :
    0 < (ss.map Spec.factor).prod := by
  rw [← exp_sum_logpOffs ss hv]; exact Real.exp_pos _

theorem eval_lin (c : ℝ) (h : 0 < c) : evalPscale (.flt c) = .ok (.lin c) := by
  simp only [evalPscale]
  by_cases h1 : c = 1
  · simp [h1]
  · simp [h1, h.ne']

theorem rfEvalProb_one (x : ℝ) (s : PSpec) (S : PScale) (hp : prodPscale [s] none = .ok (some S))
    (he : evalPscale S.spec = .ok S) : rfEvalProb [x] [s] = .ok (x, S) := by
  simp [rfEvalProb, hp, he, bind, Except.bind, pure, Except.pure]

theorem rfEvalProb_many (xs : List ℝ) (l : List PSpec) (S : PScale) (hl : l.length ≠ 1)
    (hp : prodPscale l none = .ok (some S)) (he : evalPscale S.spec = .ok S) (y : ℝ) (t : PSpec)
    (h : prodRule xs l none none = .ok (y, t)) : rfEvalProb xs l = .ok (y, S) := by
  have hr := rvProdRule_self xs l S hp
  simp only [rfEvalProb, hp, he, bind, Except.bind, pure, Except.pure, if_neg hl, hr, h]

/-- C42: on linear scales (any positive coefficients, any number of variables) the
field's probability is the product of its variables' probabilities, including
zero ones. -/
theorem C42_linear_partial (xs : List ℝ) (ss : List PScale) (hne : xs ≠ [])
    (hl : xs.length = ss.length) (he : Spec.Evaluates (ss.map PScale.spec) ss)
    (hv : ∀ s ∈ ss, Spec.Valid s) (hlin : ∀ s ∈ ss, s.iscomplex = false) :
    ∃ y s, rfEvalProb xs (ss.map PScale.spec) = .ok (y, s) ∧ s.iscomplex = false ∧
      Spec.value s y = (List.zipWith Spec.value ss xs).prod := by
  have hssne : ss ≠ [] := by rintro rfl; simp at hl; exact hne hl
  have hlin' : ∀ s ∈ ss.map PScale.spec, s.iscomplex = false := by
    intro s hs; obtain ⟨a, ha, rfl⟩ := List.mem_map.mp hs; rw [spec_iscomplex, hlin a ha]
  have hp := C04_linear_partial (ss.map PScale.spec) ss (by simpa using hssne) he hlin'
  set P := (ss.map Spec.factor).prod with hP
  have hPpos : 0 < P := prod_factor_pos ss hv
  have heP : evalPscale (PScale.lin P).spec = .ok (.lin P) := eval_lin P hPpos
  obtain ⟨y, s, h1, h2, h3⟩ := C05_linear_partial xs ss hne hl he hlin
  have hval : (List.zipWith Spec.value ss xs).prod = P * xs.prod :=
    prod_value_lin xs ss hl hlin
  refine ⟨xs.prod, .lin P, ?_, rfl, by rw [hval]; rfl⟩
  by_cases hlen : ss.length = 1
  · rw [hlen] at hl
    obtain ⟨x, rfl⟩ := List.length_eq_one_iff.mp hl
    obtain ⟨t, rfl⟩ := List.length_eq_one_iff.mp hlen
    rw [List.map_cons, List.map_nil, rfEvalProb_one x _ _ hp heP]
    simp
  · have hy : y = xs.prod := by
      have hany : (ss.map PScale.spec).any PSpec.iscomplex = false := by
        simp only [List.any_eq_false, List.mem_map]; rintro _ ⟨s, hs, rfl⟩
        simp [spec_iscomplex, hlin s hs]
      have hemp : ss.isEmpty = false := by cases ss <;> simp_all
      simp [prodRule, prodPscale, hemp, hany, hl, prodPscaleLin_eq _ ss he, bind, Except.bind,
        pure, Except.pure, PScale.iscomplex, specEq, applyProd_lin xs hne, hssne,
        PSpec.iscomplex, PScale.spec] at h1
      exact h1.1.symm
    rw [rfEvalProb_many xs _ _ (by simpa using hlen) hp heP y s.spec h1, hy]

/-- C42: with log scales, alone or mixed with linear ones, the field's probability
is the product when the scales' factors multiply to one (e.g. `'log'` and 1). -/
theorem C42_log_partial (xs : List ℝ) (ss : List PScale) (hne : xs ≠ [])
    (hl : xs.length = ss.length) (he : Spec.Evaluates (ss.map PScale.spec) ss)
    (hv : ∀ s ∈ ss, Spec.Valid s) (hx : Spec.Loggable xs ss)
    (hlog : ∃ s ∈ ss, s.iscomplex = true) (hone : (ss.map Spec.factor).prod = 1) :
    ∃ y s, rfEvalProb xs (ss.map PScale.spec) = .ok (y, s) ∧ s.iscomplex = true ∧
      Spec.value s y = (List.zipWith Spec.value ss xs).prod := by
  have hssne : ss ≠ [] := by rintro rfl; simp at hl; exact hne hl
  have hemp : ss.isEmpty = false := by cases ss <;> simp_all
  have hany : (ss.map PScale.spec).any PSpec.iscomplex = true := by
    obtain ⟨s, hs, hc⟩ := hlog
    simp only [List.any_eq_true, List.mem_map]
    exact ⟨s.spec, ⟨s, hs, rfl⟩, by rw [spec_iscomplex, hc]⟩
  have hsum : (ss.map logpOffs).sum = 0 := by
    rw [← Real.exp_eq_one_iff, exp_sum_logpOffs ss hv, hone]
  have hp : prodPscale (ss.map PScale.spec) none = .ok (some complexZero) := by
    simp [prodPscale, hemp, hany, prodPscaleLog_eq _ ss he, bind, Except.bind, pure, Except.pure,
      hsum, encodeOffs, npz_pos]
  have heP : evalPscale complexZero.spec = .ok complexZero := by
    simp [complexZero, PScale.spec, evalPscale]
  obtain ⟨y, s, h1, h2, h3⟩ := C05_log_partial xs ss hne hl he hv hx hlog hone
  have hs : s = complexZero := by
    have h1' := h1
    rw [← prodRule_default xs _ complexZero hp] at h1'
    have : ∀ r, prodRule xs (ss.map PScale.spec) none (some complexZero.spec) = .ok r →
        r.2 = complexZero.spec := by
      intro r hr
      simp only [prodRule, bind, Except.bind, pure, Except.pure, Option.getD_some] at hr
      repeat' split at hr
      all_goals first
        | (cases hr; rfl)
        | (exfalso; simp at hr; done)
        | skip
    have := this _ h1'
    rcases s with c | ⟨re, im⟩
    · simp [PScale.iscomplex] at h2
    · simp [complexZero, PScale.spec] at this
      simp [complexZero, this]
  by_cases hlen : ss.length = 1
  · rw [hlen] at hl
    obtain ⟨x, rfl⟩ := List.length_eq_one_iff.mp hl
    obtain ⟨t, rfl⟩ := List.length_eq_one_iff.mp hlen
    have htc : t.iscomplex = true := by
      obtain ⟨s, hs, hc⟩ := hlog; simp at hs; exact hs ▸ hc
    refine ⟨x, complexZero, rfEvalProb_one x _ _ hp heP, rfl, ?_⟩
    rcases t with c | ⟨re, im⟩
    · simp [PScale.iscomplex] at htc
    · have : Spec.offset re im = 0 := by
        simpa [Spec.factor] using hone
      have h0 : Spec.offset 0 0 = 0 := by simp [Spec.offset]
      simp [Spec.value, this, complexZero, h0]
  · exact ⟨y, complexZero, rfEvalProb_many xs _ _ (by simpa using hlen) hp heP y s.spec h1, rfl,
      hs ▸ h3⟩

/-- C42 fails for a log scale with a non-zero offset: a one-variable field on
scale `2+0j` re-labels the variable's probability with the scale `log 2`. -/
theorem C42_claim_fails : ¬ C42_claim := by
  intro h
  have he : Spec.Evaluates [PSpec.cplx 2 0] [.log 2 0] :=
    List.Forall₂.cons (by simp [evalPscale]) List.Forall₂.nil
  obtain ⟨y, s, hy, hs⟩ := h [1/2] [.log 2 0] (by simp) rfl he
    (by intro s hs; simp at hs; subst hs; trivial)
    (.cons (by simp [PScale.iscomplex]) .nil)
  have h2 : ¬ (2:ℝ) < npz := by linarith [npz_lt_one]
  have hl2 : Real.log 2 ≠ 0 := (Real.log_pos (by norm_num)).ne'
  have hlt : Real.log 2 ≤ 1 := by
    have := Real.log_le_sub_one_of_pos (show (0:ℝ) < 2 by norm_num); linarith
  have hl1 : Real.log 2 ≠ 1 := by
    intro h
    have h3 := Real.exp_log (show (0:ℝ) < 2 by norm_num)
    rw [h] at h3
    have := Real.exp_one_gt_d9
    rw [h3] at this; norm_num at this
  simp [rfEvalProb, prodPscale, PSpec.iscomplex, PScale.spec, bind, Except.bind, pure, Except.pure,
    prodPscaleLog, evalPscale, logpOffs, npz_pos, encodeOffs, h2, hl2, hl1] at hy
  obtain ⟨rfl, rfl⟩ := hy
  simp [Spec.value, Spec.offset, npz_pos] at hs
  linarith

/-- Non-vacuity: three linear variables, one with probability zero. -/
example : ∃ xs : List ℝ, ∃ ss : List PScale, xs.length = 3 ∧ xs.length = ss.length ∧
    Spec.Evaluates (ss.map PScale.spec) ss ∧ (∀ s ∈ ss, s.iscomplex = false) ∧
    ∀ s ∈ ss, Spec.Valid s :=
  ⟨[1/2, 1/3, 0], [.lin 1, .lin 2, .lin 5], rfl, rfl,
    .cons (by simp [PScale.spec, evalPscale]) (.cons (by simp [PScale.spec, evalPscale])
      (.cons (by simp [PScale.spec, evalPscale]) .nil)), by simp [PScale.iscomplex],
    by simp [Spec.Valid]⟩

/-! ### C57 -/

/-- C57 full claim: the default transition probability of a field of independent
variables (no transition set) denotes the geometric mean of the probabilities of
predecessor and successor, and is symmetric in them. -/
def C57_claim : Prop :=
  ∀ (xs ys : List ℝ) (ss : List PScale), xs ≠ [] → xs.length = ss.length →
    ys.length = ss.length → Spec.Evaluates (ss.map PScale.spec) ss →
    (∀ s ∈ ss, Spec.Valid s) → (∀ x ∈ xs, 0 ≤ x) → (∀ y ∈ ys, 0 ≤ y) →
    (∀ s ∈ ss, s.iscomplex = false) →
    ∃ z s, rvProdRuleN xs [ys] (ss.map PScale.spec) .none = .ok (z, s.spec) ∧
      rvProdRuleN ys [xs] (ss.map PScale.spec) .none = .ok (z, s.spec) ∧
      Spec.value s z = Real.sqrt ((List.zipWith Spec.value ss xs).prod *
        (List.zipWith Spec.value ss ys).prod)

theorem zipWith_toCommon_lin (xs : List ℝ) (l : List PSpec) (hl : xs.length = l.length)
    (h : ∀ s ∈ l, s.iscomplex = false) : List.zipWith (toCommon false) xs l = xs := by
  induction l generalizing xs with
  | nil => cases xs <;> simp_all
  | cons s l ih =>
      cases xs with
      | nil => simp at hl
      | cons x xs =>
          simp [toCommon, h s (by simp), ih xs (by simpa using hl) (fun t ht => h t (by simp [ht]))]

/-- On linear scales the stored product is the plain product whatever linear
scale is requested. -/
theorem prodRule_lin_any (xs : List ℝ) (ss : List PScale) (hne : xs ≠ [])
    (hl : xs.length = ss.length) (he : Spec.Evaluates (ss.map PScale.spec) ss)
    (hlin : ∀ s ∈ ss, s.iscomplex = false) (c : ℝ) :
    prodRule xs (ss.map PScale.spec) none (some (.flt c)) = .ok (xs.prod, .flt c) := by
  have hssne : ss ≠ [] := by rintro rfl; simp at hl; exact hne hl
  have hlin' : ∀ s ∈ ss.map PScale.spec, s.iscomplex = false := by
    intro s hs; obtain ⟨a, ha, rfl⟩ := List.mem_map.mp hs; rw [spec_iscomplex, hlin a ha]
  have hany : (ss.map PScale.spec).any PSpec.iscomplex = false := by
    simp only [List.any_eq_false]; intro s hs; simp [hlin' s hs]
  have hp := C04_linear_partial (ss.map PScale.spec) ss (by simpa using hssne) he hlin'
  have hp' : prodPscale (ss.map PScale.spec) (some false) =
      .ok (some (.lin (ss.map Spec.factor).prod)) := by
    rw [← hp]; simp only [prodPscale, Option.getD_none, Option.getD_some, hany]
  have hz := zipWith_toCommon_lin xs (ss.map PScale.spec) (by simpa using hl) hlin'
  simp only [prodRule, Option.getD_none, hany, hp', bind, Except.bind, pure, Except.pure,
    Option.getD_some, List.length_map, hl, ne_eq, not_true_eq_false, if_false, PScale.iscomplex,
    PSpec.iscomplex, hz, applyProd_lin xs hne]
  split <;> rfl

theorem rescale_lin_one (x P : ℝ) (hP : 0 < P) : rescale x (.flt P) (.flt 1) = .ok (P * x) := by
  simp only [rescale, eval_lin P hP, eval_lin 1 one_pos, bind, Except.bind, pure, Except.pure,
    rescaleE, div_one]
  by_cases h : P = 1
  · simp [h]
  · simp [h]

theorem rescale_one_lin (x P : ℝ) (hP : 0 < P) : rescale x (.flt 1) (.flt P) = .ok (x / P) := by
  simp only [rescale, eval_lin P hP, eval_lin 1 one_pos, bind, Except.bind, pure, Except.pure,
    rescaleE]
  by_cases h : P = 1
  · simp [h]
  · have h2 : ¬ (1 / P = 1) := by
      intro h'; rw [div_eq_one_iff_eq hP.ne'] at h'; exact h h'.symm
    simp only [if_neg (Ne.symm h), if_neg h2]
    congr 1; ring

theorem rvProdRuleN_lin (xs ys : List ℝ) (ss : List PScale) (hne : xs ≠ [])
    (hl : xs.length = ss.length) (hl' : ys.length = ss.length)
    (he : Spec.Evaluates (ss.map PScale.spec) ss) (hv : ∀ s ∈ ss, Spec.Valid s)
    (hlin : ∀ s ∈ ss, s.iscomplex = false) :
    rvProdRuleN xs [ys] (ss.map PScale.spec) .none =
      .ok ((((ss.map Spec.factor).prod * xs.prod * ys.prod) ^ (1 / 2 : ℝ)) /
        (ss.map Spec.factor).prod, .flt (ss.map Spec.factor).prod) := by
  have hssne : ss ≠ [] := by rintro rfl; simp at hl; exact hne hl
  have hyne : ys ≠ [] := by rintro rfl; simp at hl'; exact hssne (List.length_eq_zero_iff.mp hl'.symm)
  have hlin' : ∀ s ∈ ss.map PScale.spec, s.iscomplex = false := by
    intro s hs; obtain ⟨a, ha, rfl⟩ := List.mem_map.mp hs; rw [spec_iscomplex, hlin a ha]
  have hp := C04_linear_partial (ss.map PScale.spec) ss (by simpa using hssne) he hlin'
  set P := (ss.map Spec.factor).prod with hP
  have hPpos : 0 < P := prod_factor_pos ss hv
  have h1 : orProdPscale .none (ss.map PScale.spec) = .ok (.flt P) := by
    simp [orProdPscale, PSpec.truthy, hp, PScale.spec]
  have h2 : orProdPscale (.flt 1) (ss.map PScale.spec) = .ok (.flt 1) := by
    simp [orProdPscale, PSpec.truthy]
  have h3 : ((1 : ℕ) : ℝ) + 1 = 2 := by norm_num
  simp only [rvProdRuleN, h1, bind, Except.bind, pure, Except.pure,
    prodRule_lin_any xs ss hne hl he hlin P, List.isEmpty_cons, Bool.false_eq_true, if_false,
    PSpec.iscomplex, rescale_lin_one _ P hPpos, rvProdMore, rvProdRule, h2,
    prodRule_lin_any ys ss hyne hl' he hlin 1, rescale_one_lin _ P hPpos, List.length_singleton, h3]

/-- C57: on linear scales the default transition probability is symmetric in
predecessor and successor. -/
theorem C57_symmetric_partial (xs ys : List ℝ) (ss : List PScale) (hne : xs ≠ [])
    (hl : xs.length = ss.length) (hl' : ys.length = ss.length)
    (he : Spec.Evaluates (ss.map PScale.spec) ss) (hv : ∀ s ∈ ss, Spec.Valid s)
    (hlin : ∀ s ∈ ss, s.iscomplex = false) :
    ∃ r, rvProdRuleN xs [ys] (ss.map PScale.spec) .none = .ok r ∧
      rvProdRuleN ys [xs] (ss.map PScale.spec) .none = .ok r := by
  have hyne : ys ≠ [] := by
    rintro rfl; simp at hl'; rw [← hl'] at hl; exact hne (List.length_eq_zero_iff.mp hl)
  refine ⟨_, rvProdRuleN_lin xs ys ss hne hl hl' he hv hlin, ?_⟩
  rw [rvProdRuleN_lin ys xs ss hyne hl' hl he hv hlin]
  congr 4
  ring

/-- C57: it is the geometric mean of the two probabilities when the scales'
coefficients multiply to one (e.g. the default scale). -/
theorem C57_geometric_mean_partial (xs ys : List ℝ) (ss : List PScale) (hne : xs ≠ [])
    (hl : xs.length = ss.length) (hl' : ys.length = ss.length)
    (he : Spec.Evaluates (ss.map PScale.spec) ss) (hv : ∀ s ∈ ss, Spec.Valid s)
    (hlin : ∀ s ∈ ss, s.iscomplex = false) (hone : (ss.map Spec.factor).prod = 1) :
    ∃ z s, rvProdRuleN xs [ys] (ss.map PScale.spec) .none = .ok (z, s.spec) ∧
      Spec.value s z = Real.sqrt ((List.zipWith Spec.value ss xs).prod *
        (List.zipWith Spec.value ss ys).prod) := by
  have h := rvProdRuleN_lin xs ys ss hne hl hl' he hv hlin
  rw [hone] at h
  refine ⟨_, .lin 1, h, ?_⟩
  rw [prod_value_lin xs ss hl hlin, prod_value_lin ys ss hl' hlin, hone, Real.sqrt_eq_rpow]
  simp [Spec.value]

/-- C57 fails on other scales: on scale 2 the geometric mean comes out with one
factor 2 too few (`rv_prod_rule` asks for scale 1 but gets the unscaled product,
rf_utils.py:34). -/
theorem C57_claim_fails : ¬ C57_claim := by
  intro h
  have he : Spec.Evaluates ([PScale.lin 2].map PScale.spec) [.lin 2] :=
    List.Forall₂.cons (by simp [PScale.spec, evalPscale]) List.Forall₂.nil
  obtain ⟨z, s, h1, _, h3⟩ := h [1/2] [1/2] [.lin 2] (by simp) rfl rfl he
    (by simp [Spec.Valid]) (by simp) (by simp) (by simp [PScale.iscomplex])
  rw [rvProdRuleN_lin [1/2] [1/2] [.lin 2] (by simp) rfl rfl he (by simp [Spec.Valid])
    (by simp [PScale.iscomplex])] at h1
  simp only [Except.ok.injEq, Prod.mk.injEq] at h1
  obtain ⟨rfl, hs⟩ := h1
  rcases s with c | ⟨re, im⟩
  · simp [PScale.spec, Spec.factor] at hs
    subst hs
    simp [Spec.value, Spec.factor] at h3
    rw [show (2:ℝ)⁻¹ = 1 / 2 by norm_num, ← Real.sqrt_eq_rpow] at h3
    have h4 := Real.sq_sqrt (show (0:ℝ) ≤ 1/2 by norm_num)
    have h5 : Real.sqrt (1/2) = 1 := by linarith
    rw [h5] at h4; norm_num at h4
  · simp [PScale.spec] at hs

example : ∃ xs ys : List ℝ, ∃ ss : List PScale, xs.length = 2 ∧ xs.length = ss.length ∧
    ys.length = ss.length ∧ Spec.Evaluates (ss.map PScale.spec) ss ∧
    (∀ s ∈ ss, Spec.Valid s) ∧ (∀ s ∈ ss, s.iscomplex = false) ∧
    (ss.map Spec.factor).prod = 1 :=
  ⟨[1/2, 1/3], [1/4, 0], [.lin 2, .lin (1/2)], rfl, rfl, rfl,
    .cons (by simp [PScale.spec, evalPscale]) (.cons (by simp [PScale.spec, evalPscale]) .nil),
    by simp [Spec.Valid], by simp [PScale.iscomplex], by simp [Spec.factor]⟩

end Probayes
