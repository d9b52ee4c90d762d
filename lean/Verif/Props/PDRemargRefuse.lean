/-
Property C24, refusals: what `remarginalise` does not accept.
-/
import Verif.Props.PDRemarg
import Verif.Props.PDSerial

namespace Probayes

/-- C24: a mapping of a variable that is not among the bins is refused. -/
theorem C24_unknown_raises (fmt : Val → Str) (d : PD) (b : Dist) (mapping : Dict Str Val) (k : Str)
    (hk : k ∈ mapping.keys) (hb : k ∉ b.dims.keys ∨ (k ∉ b.vals.keys ∧ ∃ a, Dict.get? b.dims k = some (some a))) :
    Raises (d.remarginalise fmt b mapping) := by
  obtain ⟨v, hv⟩ := Dict.get?_of_mem_keys hk
  have : Raises (remCheck d b (k, v)) := by
    unfold remCheck
    rcases hb with hb | ⟨hb, a, ha⟩
    · have : Dict.get? b.dims k = none := Dict.get?_eq_none.mpr hb
      exact ⟨.key, by simp [dimOf, this, bind, Except.bind]⟩
    · simp only [dimOf, ha, bind, Except.bind]
      cases v with
      | arr s data =>
        simp only
        rcases shapesAgree s d.shape with e | ok
        · exact ⟨_, rfl⟩
        · simp only [if_neg hb]
          split_ifs <;> exact ⟨_, rfl⟩
      | _ => exact ⟨_, rfl⟩
  obtain ⟨e, he⟩ := mapM_refuses (Dict.get?_mem hv) this
  unfold PD.remarginalise
  split_ifs
  · exact ⟨_, rfl⟩
  · exact ⟨e, by simp only [he, bind, Except.bind]⟩

/-- C24: mapped values of another shape of the same number of axes than the
distribution's are refused. -/
theorem C24_shape_raises (fmt : Val → Str) (d : PD) (b : Dist) (mapping : Dict Str Val) (k : Str) (a : ℕ)
    (s : List ℕ) (data : List ℚ) (hk : Dict.get? mapping k = some (.arr s data))
    (ha : Dict.get? b.dims k = some (some a)) (hlen : s.length = d.shape.length) (hs : s ≠ d.shape) :
    Raises (d.remarginalise fmt b mapping) := by
  have : Raises (remCheck d b (k, .arr s data)) := by
    refine ⟨.assertion, ?_⟩
    simp [remCheck, dimOf, ha, shapesAgree, hlen, hs, bind, Except.bind]
  obtain ⟨e, he⟩ := mapM_refuses (Dict.get?_mem hk) this
  unfold PD.remarginalise
  split_ifs
  · exact ⟨_, rfl⟩
  · exact ⟨e, by simp only [he, bind, Except.bind]⟩

/-- C24: bins that are neither in increasing nor in decreasing order are refused,
as soon as there is a value to be put into them. -/
theorem C24_unordered_raises (fmt : Val → Str) (d : PD) (b : Dist) (mapping : Dict Str Val) (k : Str)
    (a : ℕ) (s s' : List ℕ) (edges data : List ℚ) (ha : Dict.get? b.dims k = some (some a))
    (he : Dict.get? b.vals k = some (.arr s edges)) (hk : Dict.get? mapping k = some (.arr s' data))
    (hne : data ≠ []) (hinc : ¬ edges.Pairwise (· ≤ ·)) (hdec : ¬ edges.Pairwise (· ≥ ·)) :
    Raises (d.remarginalise fmt b mapping) := by
  have h1 : ¬ (edges.map fun (e : ℚ) => (e : ℝ)).Pairwise (· ≤ ·) := by
    rw [List.pairwise_map]; intro h
    exact hinc (h.imp fun {x y} hxy => by exact_mod_cast hxy)
  have h2 : ¬ (edges.map fun (e : ℚ) => (e : ℝ)).Pairwise (· ≥ ·) := by
    rw [List.pairwise_map]; intro h
    exact hdec (h.imp fun {x y} hxy => by exact_mod_cast hxy)
  have hbin : ∀ x, Raises (binOf edges x) := fun x =>
    ⟨.value, by simp only [binOf, npDigitize, if_neg h1, if_neg h2, bind, Except.bind]⟩
  obtain ⟨x, hx⟩ := List.exists_mem_of_ne_nil _ hne
  obtain ⟨e, hm⟩ := mapM_refuses hx (hbin x)
  have hstep : ∀ ix, Raises (remBins b mapping ix (k, some a)) := by
    intro ix
    exact ⟨e, by simp only [remBins, getVal, he, hk, ravelVal, hm, bind, Except.bind]⟩
  obtain ⟨e', he'⟩ := foldlM_raises (Dict.get?_mem ha) hstep (b.shape.map fun _ => none)
  unfold PD.remarginalise
  split_ifs
  · exact ⟨_, rfl⟩
  · simp only [bind, Except.bind]
    rcases mapping.mapM (remCheck d b) with e1 | u
    · exact ⟨_, rfl⟩
    · exact ⟨e', by simp only [he']⟩

/-- A single value has nothing to be remarginalised. -/
theorem C24_scalar_raises (fmt : Val → Str) (d : PD) (b : Dist) (mapping : Dict Str Val)
    (h : d.dist.issingleton = true) : Raises (d.remarginalise fmt b mapping) :=
  ⟨.assertion, by simp [PD.remarginalise, h]⟩

/-- The refusals concern real cases: the bins 0, 2, 1 for z. -/
example (p : ℕ → ℝ) : Raises ((remPD p false).remarginalise (fun _ => ['3'])
    { binsZ with vals := [(['z'], .arr [3] [0, 2, 1])] } squareZ) :=
  C24_unordered_raises _ _ _ _ ['z'] 0 [3] [3] [0, 2, 1] [0, 1, 4] rfl rfl rfl (by simp)
    (by decide) (by decide)

example (p : ℕ → ℝ) : Raises ((remPD p false).remarginalise (fun _ => ['3']) binsZ
    [(['z'], .arr [2] [0, 1])]) :=
  C24_shape_raises _ _ _ _ ['z'] 0 [2] [0, 1] rfl rfl rfl
    (show [2] ≠ [3] by decide)

end Probayes
