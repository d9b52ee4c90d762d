/-
Property C43: field deltas.
-/
import Verif.Model.Field
import Verif.Lemmas.PScales
import Mathlib.Tactic.Linarith
import Mathlib.Tactic.Ring
import Mathlib.Tactic.FieldSimp
import Mathlib.Algebra.BigOperators.Group.List.Lemmas
import Mathlib.Algebra.BigOperators.Ring.List

namespace Probayes

/-! ### Applying a delta -/

theorem applyFieldDelta_spec {V D : Type} (apply : Str → V → D → V) (values : Dict Str V)
    (ds : Dict Str D) : ∀ (vals : Dict Str V), ds.keys.Nodup →
    (∀ k ∈ ds.keys, k ∈ values.keys) → vals.keys = values.keys →
    ∃ r, applyFieldDelta apply values ds vals = .ok r ∧ r.keys = values.keys ∧
      (∀ k, k ∉ ds.keys → r.get? k = vals.get? k) ∧
      (∀ k x, (k, x) ∈ ds → ∃ v, values.get? k = some v ∧ r.get? k = some (apply k v x)) := by
  induction ds with
  | nil => intro vals _ _ hk; exact ⟨vals, rfl, hk, by simp, by simp⟩
  | cons kx ds ih =>
      obtain ⟨k, x⟩ := kx
      intro vals hn hsub hkeys
      simp only [Dict.keys_cons, List.nodup_cons] at hn
      have hkv : k ∈ values.keys := hsub k (by simp)
      obtain ⟨v, hv⟩ := Option.isSome_iff_exists.mp (Dict.get?_isSome.mpr hkv)
      have hkeys' : (vals.set k (apply k v x)).keys = values.keys := by
        rw [Dict.keys_set, hkeys, if_pos hkv]
      obtain ⟨r, h1, h2, h3, h4⟩ := ih (vals.set k (apply k v x)) hn.2
        (fun k' hk' => hsub k' (by simp [hk'])) hkeys'
      refine ⟨r, by simp only [applyFieldDelta, hv, h1], h2, ?_, ?_⟩
      · intro k' hk'
        simp only [Dict.keys_cons, List.mem_cons, not_or] at hk'
        rw [h3 k' hk'.2, Dict.get?_set, if_neg (Ne.symm hk'.1)]
      · intro k' x' hm
        rcases List.mem_cons.mp hm with hm | hm
        · cases hm
          exact ⟨v, hv, by rw [h3 k hn.1, Dict.get?_set, if_pos rfl]⟩
        · exact h4 k' x' hm

/-- C43: applying a delta moves each variable it names by that variable's own
rule, from the variable's own value, and leaves everything else (values, keys and
their order) as it was. -/
theorem C43_apply {V D : Type} (apply : Str → V → D → V) (values : Dict Str V)
    (delta : Dict Str D) (hn : delta.keys.Nodup) (hsub : ∀ k ∈ delta.keys, k ∈ values.keys) :
    ∃ r, applyFieldDelta apply values delta values = .ok r ∧ r.keys = values.keys ∧
      (∀ k, k ∉ delta.keys → r.get? k = values.get? k) ∧
      (∀ k x, (k, x) ∈ delta → ∃ v, values.get? k = some v ∧ r.get? k = some (apply k v x)) :=
  applyFieldDelta_spec apply values delta values hn hsub rfl

/-- C43: a delta naming a variable without value raises. -/
theorem C43_apply_missing {V D : Type} (apply : Str → V → D → V) (values : Dict Str V)
    (delta : Dict Str D) (k : Str) (hk : k ∈ delta.keys) (hm : k ∉ values.keys) :
    ∀ vals, Raises (applyFieldDelta apply values delta vals) := by
  induction delta with
  | nil => simp at hk
  | cons kx ds ih =>
      obtain ⟨k', x⟩ := kx
      intro vals
      simp only [applyFieldDelta]
      rcases hg : values.get? k' with _ | v
      · exact ⟨_, rfl⟩
      · rcases List.mem_cons.mp hk with h | h
        · simp only at h; subst h
          rw [Dict.get?_eq_none.mpr hm] at hg; cases hg
        · exact ih h _

/-! ### Scalar deltas with scaling -/

/-- The i-th length belongs to the i-th variable. -/
theorem fieldLengths_eq (isRF : Bool) (vars : List DVar)
    (h : isRF = true → ∀ v ∈ vars, v.stoch = true) :
    fieldLengths isRF vars = vars.map DVar.len := by
  unfold fieldLengths
  rw [List.filter_eq_self.mpr]
  intro v hv
  cases isRF
  · rfl
  · simp [h rfl v hv]

/-- Specification of a scaled scalar delta: individually given variables keep
their delta, the others get `d`, times their length when scaling. -/
noncomputable def Spec.scaledDelta (scale : Bool) (d : ℝ) (unscale : Dict Str ℝ) (v : DVar) : ℝ :=
  match unscale.get? v.name with
  | some x => x
  | none => if scale then d * v.len else d

theorem foldl_set_get? (u : Dict Str ℝ) : ∀ (base : Dict Str ℝ) (k : Str), u.keys.Nodup →
    (u.foldl (fun acc kv => acc.set kv.1 kv.2) base).get? k =
      match u.get? k with
      | some x => some x
      | none => base.get? k := by
  induction u with
  | nil => intro base k _; rfl
  | cons kv u ih =>
      obtain ⟨k', x⟩ := kv
      intro base k hn
      simp only [Dict.keys_cons, List.nodup_cons] at hn
      rw [List.foldl_cons, ih _ _ hn.2]
      by_cases hk : k' = k
      · subst hk
        have : Dict.get? u k' = none := Dict.get?_eq_none.mpr hn.1
        simp [this, Dict.get?, Dict.get?_set]
      · simp [Dict.get?, hk, Dict.get?_set]

theorem foldl_set_keys (u : Dict Str ℝ) : ∀ (base : Dict Str ℝ),
    (∀ k ∈ u.keys, k ∈ base.keys) →
    (u.foldl (fun acc kv => acc.set kv.1 kv.2) base).keys = base.keys := by
  induction u with
  | nil => intro base _; rfl
  | cons kv u ih =>
      intro base h
      have hk : (base.set kv.1 kv.2).keys = base.keys := by
        rw [Dict.keys_set, if_pos (h kv.1 (by simp))]
      rw [List.foldl_cons, ih _ (fun k hk' => by rw [hk]; exact h k (by simp [hk'])), hk]

theorem dict_eq_map {α : Type} (names : List Str) (d : Dict Str α) (f : Str → α)
    (hk : d.keys = names) (hn : names.Nodup) (hf : ∀ k ∈ names, d.get? k = some (f k)) :
    d = names.map fun k => (k, f k) := by
  subst hk
  induction d with
  | nil => rfl
  | cons kv d ih =>
      obtain ⟨k, v⟩ := kv
      simp only [Dict.keys_cons, List.nodup_cons] at hn
      have h0 := hf k (by simp)
      simp only [Dict.get?, if_pos] at h0
      cases h0
      rw [Dict.keys_cons, List.map_cons, ← ih hn.2]
      intro k' hk'
      have := hf k' (by simp [hk'])
      have hne : k ≠ k' := by rintro rfl; exact hn.1 hk'
      simpa [Dict.get?, hne] using this

theorem prescale_eq (scale : Bool) (u : Dict Str ℝ) (g : DVar → ℝ) (vs : List DVar) :
    ∀ (pre : List ℝ),
    prescale scale (pre ++ vs.map DVar.len) u pre.length (vs.map fun v => (v.name, g v)) =
      .ok (vs.map fun v => (v.name,
        if scale = true ∧ v.name ∉ u.keys then g v * v.len else g v)) := by
  induction vs with
  | nil => intro pre; rfl
  | cons v vs ih =>
      intro pre
      have := ih (pre ++ [v.len])
      simp only [List.append_assoc, List.singleton_append, List.length_append, List.length_singleton]
        at this
      simp only [List.map_cons, prescale, lengthAt]
      have hget : (pre ++ v.len :: vs.map DVar.len)[pre.length]? = some v.len := by simp
      rw [hget]
      by_cases hc : scale = true ∧ v.name ∉ u.keys
      · simp only [if_pos hc, this]
      · simp only [if_neg hc, this]

/-- C43 full claim for scalar deltas: in every field (random or not) each variable
gets its own delta as specified. -/
def C43_scalar_claim : Prop :=
  ∀ (isRF : Bool) (vars : List DVar) (d : ℝ) (scale : Bool) (unscale : Dict Str ℝ),
    (vars.map DVar.name).Nodup → unscale.keys.Nodup →
    (∀ k ∈ unscale.keys, k ∈ vars.map DVar.name) →
    setDeltaScalar isRF vars d scale unscale =
      .ok (vars.map fun v => (v.name, Spec.scaledDelta scale d unscale v))

/-- C43: the claim holds for fields, and for random fields all of whose variables
are random. -/
theorem C43_scalar_partial (isRF : Bool) (vars : List DVar) (d : ℝ) (scale : Bool)
    (unscale : Dict Str ℝ) (hRF : isRF = true → ∀ v ∈ vars, v.stoch = true)
    (hn : (vars.map DVar.name).Nodup) (hu : unscale.keys.Nodup)
    (hsub : ∀ k ∈ unscale.keys, k ∈ vars.map DVar.name) :
    setDeltaScalar isRF vars d scale unscale =
      .ok (vars.map fun v => (v.name, Spec.scaledDelta scale d unscale v)) := by
  have hbk : Dict.keys (vars.map fun v => (v.name, d)) = vars.map DVar.name := by
    simp [Dict.keys, Function.comp_def]
  have hkeys := foldl_set_keys unscale (vars.map fun v => (v.name, d)) (by rw [hbk]; exact hsub)
  rw [hbk] at hkeys
  have hd := dict_eq_map (vars.map DVar.name)
    (unscale.foldl (fun acc kv => acc.set kv.1 kv.2) (vars.map fun v => (v.name, d)))
    (fun k => (unscale.get? k).getD d) hkeys hn (by
      intro k hk
      rw [foldl_set_get? _ _ _ hu]
      rcases hg : unscale.get? k with _ | x
      · simp only [Option.getD_none]
        obtain ⟨v, hv, rfl⟩ := List.mem_map.mp hk
        exact Dict.get?_of_mem (by rw [hbk]; exact hn) (List.mem_map.mpr ⟨v, hv, rfl⟩)
      · rfl)
  have hp := prescale_eq scale unscale (fun v => (unscale.get? v.name).getD d) vars []
  simp only [List.nil_append, List.length_nil] at hp
  unfold setDeltaScalar
  simp only [hd, List.map_map, Function.comp_def, fieldLengths_eq isRF vars hRF, hp,
    List.length_map, if_true]
  congr 1
  apply List.map_congr_left
  intro v _
  congr 1
  unfold Spec.scaledDelta
  rcases hg : unscale.get? v.name with _ | x
  · have hk : v.name ∉ unscale.keys := Dict.get?_eq_none.mp hg
    cases scale <;> simp [hk]
  · have hk : v.name ∈ unscale.keys := Dict.get?_isSome.mp (by simp [hg])
    simp [hk]

/-- C43 fails for random fields with a deterministic variable: the list of lengths
skips it, so `y` is scaled with an index beyond the list. -/
theorem C43_scalar_claim_fails : ¬ C43_scalar_claim := by
  intro h
  have := h true [⟨['x'], 2, false⟩, ⟨['y'], 3, true⟩] 1 true [] (by decide) (by decide)
    (by simp [Dict.keys])
  simp [setDeltaScalar, prescale, fieldLengths, lengthAt, Dict.keys] at this

/-! ### Isotropic deltas -/

/-- C43 full claim for tuple deltas: whatever the random outcome, an isotropic
delta of a field has Euclidean norm `d` (without scaling). -/
def C43_isotropy_claim : Prop :=
  ∀ (vars : List DVar) (d : ℝ) (draw : ℕ → ℝ), vars ≠ [] → (vars.map DVar.name).Nodup →
    0 < d → (∀ i, 0 ≤ draw i ∧ draw i < 1) →
    ∃ xs : List ℝ, sphericalDelta false vars [] false d draw =
        .ok ((vars.map DVar.name).zip (xs.map some)) ∧ xs.length = vars.length ∧
      (xs.map fun x => x ^ 2).sum = d ^ 2

theorem mapM_sphEntry (vs : List DVar) : ∀ (pre : List ℝ),
    ((vs.map DVar.name).zipIdx pre.length).mapM (sphEntry (pre ++ vs.map DVar.len)) =
      .ok (vs.map fun v => (v.name, v.len)) := by
  induction vs with
  | nil => intro pre; rfl
  | cons v vs ih =>
      intro pre
      have := ih (pre ++ [v.len])
      simp only [List.append_assoc, List.singleton_append, List.length_append, List.length_singleton]
        at this
      have hget : (pre ++ v.len :: vs.map DVar.len)[pre.length]? = some v.len := by simp
      simp only [List.map_cons, List.zipIdx_cons, List.mapM_cons, sphEntry, lengthAt, hget, this,
        bind, Except.bind, pure, Except.pure]

theorem sphereVals_false (lengths : List ℝ) (l : List (Str × Option ℝ)) : ∀ i,
    sphereVals false lengths i l = .ok l := by
  induction l with
  | nil => intro i; rfl
  | cons kv l ih => intro i; obtain ⟨k, v⟩ := kv; simp [sphereVals, ih]

theorem sphereVals_true (vs : List DVar) : ∀ (pre : List ℝ) (xs : List ℝ),
    xs.length = vs.length →
    sphereVals true (pre ++ vs.map DVar.len) pre.length
        ((vs.map DVar.name).zip (xs.map some)) =
      .ok ((vs.map DVar.name).zip ((List.zipWith (fun x v => x * DVar.len v) xs vs).map some)) := by
  induction vs with
  | nil => intro pre xs _; simp [sphereVals]
  | cons v vs ih =>
      intro pre xs hl
      cases xs with
      | nil => simp at hl
      | cons x xs =>
          have := ih (pre ++ [v.len]) xs (by simpa using hl)
          simp only [List.append_assoc, List.singleton_append, List.length_append,
            List.length_singleton] at this
          have hget : (pre ++ v.len :: vs.map DVar.len)[pre.length]? = some v.len := by simp
          simp [sphereVals, lengthAt, hget, this]

/-- The uniform draws of an isotropic delta of length `d` over `n` variables. -/
noncomputable def sphereDraws (d : ℝ) (draw : ℕ → ℝ) (n : ℕ) : List ℝ :=
  (List.range n).map fun i => -d + (d - -d) * draw i

theorem sum_sq_normalised (l : List ℝ) (d r : ℝ) (hr : r ≠ 0)
    (h : (l.map fun x => x ^ 2).sum = r ^ 2) :
    ((l.map fun x => x * d / r).map fun x => x ^ 2).sum = d ^ 2 := by
  rw [List.map_map]
  have : ((fun x : ℝ => x ^ 2) ∘ fun x => x * d / r) = fun x => (d ^ 2 / r ^ 2) * x ^ 2 := by
    funext x; simp only [Function.comp]; field_simp
  rw [this, List.sum_map_mul_left, h]
  field_simp

/-- C43: without scaling the components of an isotropic delta always have
Euclidean norm `d`, for every random outcome whose components do not all vanish
(sum of squares at least the smallest normal float). -/
theorem C43_isotropy_partial (isRF : Bool) (vars : List DVar) (d : ℝ) (draw : ℕ → ℝ)
    (hne : vars ≠ []) (hRF : isRF = true → ∀ v ∈ vars, v.stoch = true)
    (hpos : npz ≤ ((sphereDraws d draw vars.length).map fun x => x ^ 2).sum) :
    ∃ xs : List ℝ, sphericalDelta isRF vars [] false d draw =
        .ok ((vars.map DVar.name).zip (xs.map some)) ∧ xs.length = vars.length ∧
      (xs.map fun x => x ^ 2).sum = d ^ 2 := by
  set S := ((sphereDraws d draw vars.length).map fun x => x ^ 2).sum with hS
  have hSpos : 0 < S := lt_of_lt_of_le npz_pos hpos
  have hr : Real.sqrt S ≠ 0 := (Real.sqrt_pos.mpr hSpos).ne'
  have hm := mapM_sphEntry vars []
  simp only [List.nil_append, List.length_nil] at hm
  have hfil : ((vars.map DVar.name).zipIdx.filter (fun k => k.1 ∉ ([] : List Str))) =
      (vars.map DVar.name).zipIdx := by simp
  refine ⟨(sphereDraws d draw vars.length).map fun x => x * d / Real.sqrt S, ?_, by
    simp [sphereDraws], sum_sq_normalised _ d _ hr (by rw [Real.sq_sqrt hSpos.le])⟩
  unfold sphericalDelta
  rw [hfil, fieldLengths_eq isRF vars hRF, hm]
  have hemp : (vars.map fun v => (v.name, v.len)).isEmpty = false := by
    cases vars <;> simp_all
  simp only [hemp, Bool.false_eq_true, if_false, List.length_map, sphereVals_false]
  have hrs : realSqrt (((List.range vars.length).map fun i => -d + (d - -d) * draw i).map
      fun x => x ^ 2).sum = Real.sqrt S := by
    unfold realSqrt; exact if_pos hpos
  rw [hrs]
  have hfd : ∀ x, fdiv (x * d) (Real.sqrt S) = some (x * d / Real.sqrt S) := by
    intro x; simp [fdiv, hr]
  have hlist : ((List.range vars.length).map fun i => -d + (d - -d) * draw i).map
      (fun x => fdiv (x * d) (Real.sqrt S)) =
      ((sphereDraws d draw vars.length).map fun x => x * d / Real.sqrt S).map some := by
    simp [sphereDraws, hfd]
  rw [hlist]
  simp [sphereDraws, Function.comp_def]

/-- C43: with scaling the components relative to the variables' lengths have norm
`d` times the norm of the lengths. -/
theorem C43_scaled_isotropy_partial (isRF : Bool) (vars : List DVar) (d : ℝ) (draw : ℕ → ℝ)
    (hne : vars ≠ []) (hRF : isRF = true → ∀ v ∈ vars, v.stoch = true)
    (R : ℝ) (hR : R = realSqrt ((vars.map fun v => v.len ^ 2).sum))
    (hpos : npz ≤ ((sphereDraws (d * R) draw vars.length).map fun x => x ^ 2).sum) :
    ∃ xs : List ℝ, sphericalDelta isRF vars [] true d draw =
        .ok ((vars.map DVar.name).zip ((List.zipWith (fun x v => x * DVar.len v) xs vars).map some))
      ∧ xs.length = vars.length ∧ (xs.map fun x => x ^ 2).sum = (d * R) ^ 2 := by
  set S := ((sphereDraws (d * R) draw vars.length).map fun x => x ^ 2).sum with hS
  have hSpos : 0 < S := lt_of_lt_of_le npz_pos hpos
  have hr : Real.sqrt S ≠ 0 := (Real.sqrt_pos.mpr hSpos).ne'
  have hm := mapM_sphEntry vars []
  simp only [List.nil_append, List.length_nil] at hm
  have hfil : ((vars.map DVar.name).zipIdx.filter (fun k => k.1 ∉ ([] : List Str))) =
      (vars.map DVar.name).zipIdx := by simp
  refine ⟨(sphereDraws (d * R) draw vars.length).map fun x => x * (d * R) / Real.sqrt S, ?_, by
    simp [sphereDraws], sum_sq_normalised _ (d * R) _ hr (by rw [Real.sq_sqrt hSpos.le])⟩
  unfold sphericalDelta
  rw [hfil, fieldLengths_eq isRF vars hRF, hm]
  have hemp : (vars.map fun v => (v.name, v.len)).isEmpty = false := by
    cases vars <;> simp_all
  have hR' : realSqrt (((vars.map fun v => (v.name, v.len)).map fun kl => kl.2 ^ 2).sum) = R := by
    rw [hR]; simp [Function.comp_def]
  simp only [hemp, Bool.false_eq_true, if_false, if_true, List.length_map, hR']
  have hrs : realSqrt (((List.range vars.length).map
      fun i => -(d * R) + (d * R - -(d * R)) * draw i).map fun x => x ^ 2).sum = Real.sqrt S := by
    unfold realSqrt; exact if_pos hpos
  rw [hrs]
  have hfd : ∀ x, fdiv (x * (d * R)) (Real.sqrt S) = some (x * (d * R) / Real.sqrt S) := by
    intro x; simp [fdiv, hr]
  have hlist : ((List.range vars.length).map
      fun i => -(d * R) + (d * R - -(d * R)) * draw i).map
      (fun x => fdiv (x * (d * R)) (Real.sqrt S)) =
      ((sphereDraws (d * R) draw vars.length).map fun x => x * (d * R) / Real.sqrt S).map some := by
    simp [sphereDraws, hfd]
  have hnames : (vars.map fun v => (v.name, v.len)).map Prod.fst = vars.map DVar.name := by
    simp [Function.comp_def]
  rw [hlist, hnames]
  have hsv := sphereVals_true vars []
    ((sphereDraws (d * R) draw vars.length).map fun x => x * (d * R) / Real.sqrt S)
    (by simp [sphereDraws])
  simp only [List.nil_append, List.length_nil] at hsv
  rw [hsv]
  simp [sphereDraws]

/-- C43 fails for the outcome in which every draw is the midpoint: the components
are not finite. -/
theorem C43_isotropy_claim_fails : ¬ C43_isotropy_claim := by
  intro h
  obtain ⟨xs, h1, h2, _⟩ := h [⟨['x'], 1, true⟩] 1 (fun _ => 1 / 2) (by simp) (by simp) one_pos
    (by intro i; norm_num)
  obtain ⟨x, rfl⟩ := List.length_eq_one_iff.mp (by simpa using h2)
  have h0 : realSqrt 0 = 0 := by
    unfold realSqrt; rw [if_neg (by linarith [npz_pos])]
  have hz : (-1 : ℝ) + (1 - -1) * (1 / 2) = 0 := by norm_num
  simp [sphericalDelta, fieldLengths, sphEntry, lengthAt, bind, Except.bind, pure, Except.pure,
    sphereVals] at h1
  have hz' : (-1 : ℝ) + (1 + 1) * 2⁻¹ = 0 := by norm_num
  rw [hz'] at h1
  simp [h0, fdiv] at h1

theorem mapM_ok_length {α β : Type} (f : α → Py β) (l : List α) : ∀ r, l.mapM f = .ok r →
    r.length = l.length := by
  induction l with
  | nil => intro r h; simp [pure, Except.pure] at h; simp [← h]
  | cons a l ih =>
      intro r h
      rw [List.mapM_cons] at h
      rcases ha : f a with e | b
      · simp [ha, bind, Except.bind] at h
      · rcases hL : l.mapM f with e | c
        · simp [ha, hL, bind, Except.bind] at h
        · simp [ha, hL, bind, Except.bind, pure, Except.pure] at h
          rw [← h]; simp [ih c hL]

/-- C43: naming variables in the optional argument makes an isotropic delta
unusable: evaluation raises for every outcome. -/
theorem C43_unscaled_sphere_raises (vars : List DVar) (unscaled : List Str) (scale : Bool)
    (d : ℝ) (draw : ℕ → ℝ) (k : Str) (hk : k ∈ vars.map DVar.name) (hu : k ∈ unscaled) :
    Raises (sphericalDelta false vars unscaled scale d draw) := by
  unfold sphericalDelta
  set L := (vars.map DVar.name).zipIdx.filter (fun k => k.1 ∉ unscaled) with hL
  have hlt : L.length < vars.length := by
    have h1 : L.length < (vars.map DVar.name).zipIdx.length := by
      rw [hL]
      obtain ⟨i, hi, rfl⟩ := List.getElem_of_mem hk
      have hmem : ((vars.map DVar.name)[i], i) ∈ (vars.map DVar.name).zipIdx := by
        rw [List.mem_zipIdx_iff_getElem?]; simp [List.getElem?_eq_getElem (by simpa using hi)]
      apply List.length_filter_lt_length_iff_exists.mpr
      exact ⟨_, hmem, by simp; simpa using hu⟩
    simpa using h1
  rcases hm : L.mapM (sphEntry (fieldLengths false vars)) with e | sph
  · exact ⟨e, rfl⟩
  · have hlen : sph.length = L.length := mapM_ok_length _ L sph hm
    simp only []
    split
    · exact ⟨_, rfl⟩
    · split
      · exact ⟨_, rfl⟩
      · rename_i r hr
        have hrl : ∀ (l : List (Str × Option ℝ)) i r, sphereVals scale (fieldLengths false vars) i l
            = .ok r → r.length = l.length := by
          intro l
          induction l with
          | nil => intro i r h; simp [sphereVals] at h; simp [← h]
          | cons a l ih =>
              intro i r h
              obtain ⟨k, v⟩ := a
              simp only [sphereVals] at h
              split at h
              · cases h
              · rename_i x hx
                rcases hs : sphereVals scale (fieldLengths false vars) (i + 1) l with e | r'
                · simp [hs] at h
                · simp [hs] at h; rw [← h]; simp [ih _ _ hs]
        have := hrl _ _ _ hr
        rw [if_neg]
        · exact ⟨_, rfl⟩
        · rw [this]; simp; omega

/-- Non-vacuity: two variables and draws off the midpoint. -/
example : npz ≤ ((sphereDraws 1 (fun _ => 1 / 4) 2).map fun x => x ^ 2).sum := by
  have : npz ≤ 1 / 4 := by unfold npz; norm_num
  simp [sphereDraws, List.range_succ]
  norm_num
  linarith

end Probayes
