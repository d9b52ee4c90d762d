/- Lemmas on flattening, squeezing and coordinate grids. -/
import Verif.Model.Mvar
import Verif.Lemmas.Indices

namespace Probayes

theorem length_ravel (a : Arr) : a.ravel.length = a.shape.prod := by
  simp [Arr.ravel, length_indices]

/-- Entry of a flattened array. -/
theorem getD_ravel {a : Arr} {k : ℕ} (hk : k < a.ravel.length) :
    a.ravel.getD k 0 = a.get (unravelIx a.shape k) := by
  rw [length_ravel] at hk
  rw [List.getD_eq_getElem?_getD, Arr.ravel, List.getElem?_map, getElem?_indices hk]
  rfl

/-- The entries of an index at the axes of size other than one. -/
def squeezeIx (sizes j : List ℕ) : List ℕ := ((sizes.zip j).filter (·.1 ≠ 1)).map Prod.snd

theorem unsqueeze_squeezeIx {s j : List ℕ} (h : List.Forall₂ (· < ·) j s) :
    unsqueeze s (squeezeIx s j) = j := by
  induction h with
  | nil => rfl
  | @cons i n j s hi _ ih =>
    by_cases hn : n = 1
    · subst hn
      have : i = 0 := by omega
      subst this
      simpa [unsqueeze, squeezeIx] using ih
    · simpa [unsqueeze, squeezeIx, hn] using ih

theorem meshGet_eq {arrs : List Arr} {i n : ℕ} {a : Arr} {j : List ℕ} (ha : arrs[i]? = some a)
    (hj : j[meshAxis arrs.length i]? = some n) (hn : n < a.ravel.length) :
    meshGet arrs i j = a.ravel.getD n 0 := by
  rw [getD_ravel hn]
  simp [meshGet, ha, hj]

/-- The points of a grid made from at least two arrays. -/
theorem mesh_points (p q : Arr) (rest : List Arr) (jq jp : ℕ) (jr : List ℕ)
    (hp : jp < p.ravel.length) (hq : jq < q.ravel.length)
    (hr : List.Forall₂ (fun i (a : Arr) => i < a.ravel.length) jr rest) :
    (List.range (p :: q :: rest).length).map (fun i => meshGet (p :: q :: rest) i (jq :: jp :: jr)) =
      p.ravel.getD jp 0 :: q.ravel.getD jq 0 ::
        List.zipWith (fun (a : Arr) i => a.ravel.getD i 0) rest jr := by
  have hl := hr.length_eq
  apply List.ext_getElem
  · simp [hl]
  · intro i h1 h2
    simp only [List.getElem_map, List.getElem_range]
    match i with
    | 0 => exact meshGet_eq rfl (by
        rw [meshAxis, if_neg (by simp)]; simp) hp
    | 1 => exact meshGet_eq rfl (by
        rw [meshAxis, if_neg (by simp)]; simp) hq
    | i + 2 =>
      have hi : i < rest.length := by simp at h1; omega
      have hi' : i < jr.length := by omega
      rw [meshGet_eq (a := rest[i]) (n := jr[i]) (by simp [hi]) (by simp [meshAxis, hi'])
        (List.forall₂_iff_get.mp hr |>.2 i hi' hi)]
      simp

/-- Tabulating over a grid made from at least two arrays. -/
theorem mvarMesh_eq (dim : ℕ) (f : List ℝ → ℝ) (p q : Arr) (rest : List Arr)
    (hd : (p :: q :: rest).length = dim) : ∃ T, mvarMesh dim f (p :: q :: rest) = .ok T ∧
      T.shape = (q.ravel.length :: p.ravel.length :: rest.map fun a => a.ravel.length).filter (· ≠ 1) ∧
      ∀ jq jp jr, jq < q.ravel.length → jp < p.ravel.length →
        List.Forall₂ (fun i (a : Arr) => i < a.ravel.length) jr rest →
        T.get (squeezeIx (q.ravel.length :: p.ravel.length :: rest.map fun a => a.ravel.length)
          (jq :: jp :: jr)) =
        f (p.ravel.getD jp 0 :: q.ravel.getD jq 0 ::
          List.zipWith (fun (a : Arr) i => a.ravel.getD i 0) rest jr) := by
  have h1 : (p :: q :: rest).length ≠ 1 := by simp
  have hm : meshShape ((p :: q :: rest).map fun a => a.shape.prod) =
      q.ravel.length :: p.ravel.length :: rest.map fun a => a.ravel.length := by
    simp [meshShape, length_ravel]
  refine ⟨_, if_pos (Or.inl hd), ?_, ?_⟩
  · rw [hm]
    rfl
  · intro jq jp jr hq hp hr
    simp only [squeeze, hm]
    rw [unsqueeze_squeezeIx]
    · rw [← mesh_points p q rest jq jp jr hp hq hr, ← hd]
      simp only [h1, if_false]
    · refine List.Forall₂.cons hq (List.Forall₂.cons hp ?_)
      rw [List.forall₂_map_right_iff]
      exact hr

/-- The order of the values for at least three of them. -/
theorem mvarOrder_three {α : Type} (us : List α) (a b c : α) :
    mvarOrder (us ++ [a, b, c]) = b :: a :: (us.reverse ++ [c]) := by
  simp [mvarOrder]

end Probayes
