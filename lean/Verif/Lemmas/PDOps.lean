/-
Lemmas for the simpler operations on distributions.
-/
import Verif.Model.PDOps
import Verif.Lemmas.PDMarg

namespace Probayes

/-- The parts of a well-formed distribution are constructor arguments. -/
theorem PD.WF.buildArgs {fmt : Val → Str} {d : PD} (h : d.WF fmt) (hp : d.Pos) :
    BuildArgs fmt d.marg d.cond d.vals d.dims d.shape where
  ne := h.ne
  nodup := h.nodup
  allowed := h.allowed
  margSide := h.margSide
  condSide := h.condSide
  disj := h.disj
  keys := h.keys
  dimNodup := h.dimNodup
  dimKeys := h.dimKeys
  single := fun k v hv hs => ⟨by rw [(h.single k v hv hs).1]; rfl, (h.single k v hv hs).2⟩
  array := fun k v hv hs => h.size_ok hp hv hs
  cover := fun a ha => h.cover a (by rw [← h.rank]; exact ha)

theorem mapM_ok {α β : Type _} {f : α → Py β} {g : α → β} {l : List α}
    (h : ∀ x ∈ l, f x = .ok (g x)) : l.mapM f = .ok (l.map g) := by
  induction l with
  | nil => rfl
  | cons x l ih =>
    rw [List.mapM_cons, h x (by simp), ih fun y hy => h y (by simp [hy])]
    rfl

theorem gather_ok {α : Type _} {l : List α} {ix : List ℕ} (x0 : α) (h : ∀ i ∈ ix, i < l.length) :
    gather l ix = .ok (ix.map fun i => l.getD i x0) := by
  apply mapM_ok
  intro i hi
  have := h i hi
  simp [List.getElem?_eq_getElem this, List.getD]

theorem gatherAxis_ok {a : Arr} {ax n : ℕ} {ix : List ℕ} (hs : a.shape[ax]? = some n)
    (h : ∀ i ∈ ix, i < n) : gatherAxis a ax ix =
      .ok ⟨a.shape.set ax ix.length, fun j => a.get (j.set ax (ix.getD (j.getD ax 0) 0))⟩ := by
  have : ix.all (· < n) = true := by rw [List.all_eq_true]; intro i hi; simpa using h i hi
  simp only [gatherAxis, hs, this, if_true]

end Probayes
