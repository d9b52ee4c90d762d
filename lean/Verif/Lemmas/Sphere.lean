/-
What spherised deltas come to, in closed form; used for C84 and C85.
-/
import Verif.Model.RFCov
import Verif.Props.FieldDelta

namespace Probayes

/-- The radius, times the lengths' if scaled. -/
noncomputable def sphRadius (lens : List ℝ) (d : ℝ) (scale : Bool) : ℝ :=
  if scale then d * realSqrt ((lens.map fun l => l ^ 2).sum) else d

theorem sphereVals_zip (scale : Bool) (vs : List DVar) : ∀ (pre : List ℝ) (xs : List (Option ℝ)),
    xs.length = vs.length →
    sphereVals scale (pre ++ vs.map DVar.len) pre.length ((vs.map DVar.name).zip xs) =
      .ok ((vs.map DVar.name).zip (List.zipWith (fun x v => x.map (· * if scale then DVar.len v else 1)) xs vs)) := by
  induction vs with
  | nil => intro pre xs _; simp [sphereVals]
  | cons v vs ih =>
      intro pre xs hl
      cases xs with
      | nil => simp at hl
      | cons x xs =>
          have := ih (pre ++ [v.len]) xs (by simpa using hl)
          simp only [List.append_assoc, List.singleton_append, List.length_append,
            List.length_singleton] at this
          have hget : (pre ++ v.len :: vs.map DVar.len)[pre.length]? = some v.len := by simp
          cases scale
          · simp only [Bool.false_eq_true, if_false] at this
            simp [sphereVals, this]
          · simp only [if_true] at this
            simp [sphereVals, lengthAt, hget, this]

theorem sphericalDelta_eq (isRF : Bool) (vars : List DVar) (scale : Bool) (d : ℝ) (draw : ℕ → ℝ)
    (hne : vars ≠ []) (hRF : isRF = true → ∀ v ∈ vars, v.stoch = true) :
    sphericalDelta isRF vars [] scale d draw =
      .ok ((vars.map DVar.name).zip (List.zipWith (fun x v => x.map (· * if scale then DVar.len v else 1))
        ((sphereDraws (sphRadius (vars.map DVar.len) d scale) draw vars.length).map fun x =>
          fdiv (x * sphRadius (vars.map DVar.len) d scale)
            (realSqrt (((sphereDraws (sphRadius (vars.map DVar.len) d scale) draw vars.length).map
              fun x => x ^ 2).sum))) vars)) := by
  have hm := mapM_sphEntry vars []
  simp only [List.nil_append, List.length_nil] at hm
  have hfil : ((vars.map DVar.name).zipIdx.filter (fun k => k.1 ∉ ([] : List Str))) =
      (vars.map DVar.name).zipIdx := by simp
  unfold sphericalDelta
  rw [hfil, fieldLengths_eq isRF vars hRF, hm]
  have hemp : (vars.map fun v => (v.name, v.len)).isEmpty = false := by
    cases vars <;> simp_all
  have hR : (vars.map fun v => (v.name, v.len)).map (fun kl => kl.2 ^ 2) = (vars.map DVar.len).map fun l => l ^ 2 := by
    simp [Function.comp_def]
  have hnames : (vars.map fun v => (v.name, v.len)).map Prod.fst = vars.map DVar.name := by
    simp [Function.comp_def]
  simp only [hemp, Bool.false_eq_true, if_false, List.length_map, hR, hnames]
  have hrad : (if scale = true then d * realSqrt (((vars.map DVar.len).map fun l => l ^ 2).sum) else d) =
      sphRadius (vars.map DVar.len) d scale := by
    unfold sphRadius; cases scale <;> rfl
  rw [hrad]
  have hsv := sphereVals_zip scale vars [] ((sphereDraws (sphRadius (vars.map DVar.len) d scale) draw vars.length).map
    fun x => fdiv (x * sphRadius (vars.map DVar.len) d scale)
            (realSqrt (((sphereDraws (sphRadius (vars.map DVar.len) d scale) draw vars.length).map
              fun x => x ^ 2).sum))) (by simp [sphereDraws])
  simp only [List.nil_append, List.length_nil] at hsv
  have hdr : (List.range vars.length).map (fun i => -sphRadius (vars.map DVar.len) d scale +
      (sphRadius (vars.map DVar.len) d scale - -sphRadius (vars.map DVar.len) d scale) * draw i) =
      sphereDraws (sphRadius (vars.map DVar.len) d scale) draw vars.length := rfl
  rw [hdr]
  rw [hsv]
  simp [sphereDraws]

/-- The radius of a field of float variables. -/
noncomputable def radius {n : ℕ} (cs : Fin n → FCoord) (d : ℝ) (scale : Bool) : ℝ :=
  if scale then d * realSqrt (∑ i, (cs i).len ^ 2) else d

/-- The sum of the squares of the draws. -/
noncomputable def drawSq {n : ℕ} (ρ : ℝ) (u : Fin n → ℝ) : ℝ := ∑ i, (ρ * (2 * u i - 1)) ^ 2

/-- The components. -/
noncomputable def sphComp {n : ℕ} (cs : Fin n → FCoord) (d : ℝ) (scale : Bool) (u : Fin n → ℝ) (i : Fin n) : ℝ :=
  radius cs d scale * (2 * u i - 1) * radius cs d scale / Real.sqrt (drawSq (radius cs d scale) u) *
    if scale then (cs i).len else 1

theorem mapM_snd_zip {β : Type} (ns : List Str) : ∀ (xs : List (Option β)), ns.length = xs.length →
    (ns.zip xs).mapM Prod.snd = xs.mapM id := by
  induction ns with
  | nil => intro xs h; cases xs <;> simp_all
  | cons k ns ih =>
      intro xs h
      cases xs with
      | nil => simp at h
      | cons x xs => simp only [List.zip_cons_cons, List.mapM_cons, ih xs (by simpa using h), id]

theorem mapM_id_some {β : Type} (xs : List β) : (xs.map some).mapM id = some xs := by
  induction xs with
  | nil => rfl
  | cons x xs ih => simp [List.mapM_cons, ih]

theorem fieldMoves_sphere {n : ℕ} (hn : 0 < n) (names : Fin n → Str) (cs : Fin n → FCoord) (d : ℝ) (scale : Bool)
    (u : Fin n → ℝ) :
    fieldMoves names cs (.sphere d scale) u =
      if npz ≤ drawSq (radius cs d scale) u then .ok (.nums (sphComp cs d scale u)) else .error .value := by
  set vars : List DVar := List.ofFn fun i => ⟨names i, (cs i).len, true⟩ with hvars
  have hlen : vars.length = n := by simp [hvars]
  have hne : vars ≠ [] := by intro h; rw [h] at hlen; simp at hlen; omega
  have hrad : sphRadius (vars.map DVar.len) d scale = radius cs d scale := by
    unfold sphRadius radius
    have : ((vars.map DVar.len).map fun l => l ^ 2).sum = ∑ i, (cs i).len ^ 2 := by
      simp only [hvars, List.map_ofFn, Function.comp_def]
      exact List.sum_ofFn
    rw [this]
  set ρ := radius cs d scale with hρ
  have hdraw : sphereDraws ρ (fun i => if h : i < n then u ⟨i, h⟩ else 0) vars.length =
      List.ofFn fun i => ρ * (2 * u i - 1) := by
    unfold sphereDraws
    rw [hlen]
    refine List.ext_getElem (by simp) fun i h1 h2 => ?_
    have hi : i < n := by simpa using h1
    simp only [List.getElem_map, List.getElem_range, hi, dif_pos, List.getElem_ofFn]
    ring
  have hsum : ((List.ofFn fun i => ρ * (2 * u i - 1)).map fun x => x ^ 2).sum = drawSq ρ u := by
    rw [List.map_ofFn]
    unfold drawSq
    rw [List.sum_ofFn]
    rfl
  have heq := sphericalDelta_eq true vars scale d (fun i => if h : i < n then u ⟨i, h⟩ else 0) hne
    (by intro _ v hv; simp only [hvars, List.mem_ofFn] at hv; obtain ⟨i, rfl⟩ := hv; rfl)
  rw [hrad, hdraw, hsum] at heq
  simp only [fieldMoves]
  rw [heq]
  simp only [bind, Except.bind]
  rw [mapM_snd_zip _ _ (by simp [hvars])]
  by_cases hS : npz ≤ drawSq ρ u
  · have hpos : 0 < drawSq ρ u := lt_of_lt_of_le npz_pos hS
    have hr : realSqrt (drawSq ρ u) = Real.sqrt (drawSq ρ u) := if_pos hS
    have hr0 : Real.sqrt (drawSq ρ u) ≠ 0 := (Real.sqrt_pos.mpr hpos).ne'
    have hl : List.zipWith (fun x v => x.map (· * if scale then DVar.len v else 1))
        ((List.ofFn fun i => ρ * (2 * u i - 1)).map fun x => fdiv (x * ρ) (realSqrt (drawSq ρ u))) vars =
        (List.ofFn (sphComp cs d scale u)).map some := by
      refine List.ext_getElem (by simp [hlen]) fun i h1 h2 => ?_
      have hi : i < n := by simpa using h2
      simp only [List.getElem_zipWith, List.getElem_map, List.getElem_ofFn, hvars, fdiv, hr, hr0, if_false,
        Option.map_some, sphComp, ← hρ]
    rw [hl, mapM_id_some, if_pos hS]
    simp [pure, Except.pure]
  · have hr : realSqrt (drawSq ρ u) = 0 := if_neg hS
    have hl : (List.zipWith (fun x v => x.map (· * if scale then DVar.len v else 1))
        ((List.ofFn fun i => ρ * (2 * u i - 1)).map fun x => fdiv (x * ρ) (realSqrt (drawSq ρ u))) vars).mapM id =
        none := by
      obtain ⟨v, vs, hv⟩ := List.exists_cons_of_ne_nil hne
      obtain ⟨m, rfl⟩ := Nat.exists_eq_succ_of_ne_zero hn.ne'
      rw [hv, List.ofFn_succ, List.map_cons, List.zipWith_cons_cons, List.mapM_cons, hr]
      simp [fdiv]
    rw [hl, if_neg hS]

end Probayes
