/-
C24 (remarginalising).
-/
import Verif.Model.PDRemarg
import Verif.Lemmas.Indices
import Verif.Lemmas.PDCheck
import Verif.Lemmas.PDDrop
import Verif.Lemmas.PDProduct3
import Verif.Props.PDMarg2

namespace Probayes

/-! ### bins -/

/-- `x` falls into the `n`th bin: the `n`th edge is the last not above `x` (for
decreasing edges: the last above `x`); the first bin takes all that come before. -/
def Spec.InBin (edges : List ℚ) (x : ℚ) (n : ℕ) : Prop :=
  n < edges.length ∧
  (edges.Pairwise (· ≤ ·) ∧ (n = 0 ∨ ∃ e, edges[n]? = some e ∧ e ≤ x) ∧
      (∀ e, edges[n + 1]? = some e → x < e) ∨
    ¬ edges.Pairwise (· ≤ ·) ∧ edges.Pairwise (· ≥ ·) ∧ (n = 0 ∨ ∃ e, edges[n]? = some e ∧ x < e) ∧
      (∀ e, edges[n + 1]? = some e → e ≤ x))

theorem pairwise_getElem?_lt {α : Type _} {R : α → α → Prop} {l : List α}
    (hl : l.Pairwise R) {i j : ℕ} {v w : α} (hij : i < j) (hv : l[i]? = some v) (hw : l[j]? = some w) : R v w := by
  obtain ⟨hi, rfl⟩ := List.getElem?_eq_some_iff.mp hv
  obtain ⟨hj, rfl⟩ := List.getElem?_eq_some_iff.mp hw
  exact List.pairwise_iff_getElem.mp hl i j hi hj hij

theorem Spec.InBin.unique {edges : List ℚ} {x : ℚ} {n m : ℕ} (hn : Spec.InBin edges x n)
    (hm : Spec.InBin edges x m) : n = m := by
  have aux : ∀ n m, n < m → Spec.InBin edges x n → Spec.InBin edges x m → False := by
    intro n m hlt hn hm
    have hml := hm.1
    have hnext : edges[n + 1]? = some (edges[n + 1]'(by omega)) := List.getElem?_eq_getElem _
    rcases hn.2 with ⟨hs, _, h2⟩ | ⟨hs, hs', _, h2⟩ <;> rcases hm.2 with ⟨gs, h3, _⟩ | ⟨gs, _, h3, _⟩
    · rcases h3 with h3 | ⟨e, he, hex⟩
      · omega
      · have := h2 _ hnext
        have hle : edges[n + 1]'(by omega) ≤ e := by
          rcases Nat.lt_or_eq_of_le (Nat.succ_le_of_lt hlt) with h | h
          · exact pairwise_getElem?_lt hs h hnext he
          · rw [← h] at he
            rw [hnext] at he
            simp only [Option.some.injEq] at he
            exact he.le
        linarith
    · exact gs hs
    · exact hs gs
    · rcases h3 with h3 | ⟨e, he, hex⟩
      · omega
      · have := h2 _ hnext
        have hle : edges[n + 1]'(by omega) ≥ e := by
          rcases Nat.lt_or_eq_of_le (Nat.succ_le_of_lt hlt) with h | h
          · exact pairwise_getElem?_lt hs' h hnext he
          · rw [← h] at he
            rw [hnext] at he
            simp only [Option.some.injEq] at he
            exact he.ge
        linarith
  rcases Nat.lt_trichotomy n m with h | h | h
  · exact (aux n m h hn hm).elim
  · exact h
  · exact (aux m n h hm hn).elim

theorem binOf_ok {edges : List ℚ} (hne : edges ≠ []) (hs : edges.Pairwise (· ≤ ·) ∨ edges.Pairwise (· ≥ ·))
    (x : ℚ) : ∃ n, binOf edges x = .ok n ∧ Spec.InBin edges x n := by
  have hlen : 0 < edges.length := List.length_pos_of_ne_nil hne
  have hcast : (edges.map fun (e : ℚ) => (e : ℝ)).Pairwise (· ≤ ·) ↔ edges.Pairwise (· ≤ ·) := by
    rw [List.pairwise_map]
    simp
  have hcast' : (edges.map fun (e : ℚ) => (e : ℝ)).Pairwise (· ≥ ·) ↔ edges.Pairwise (· ≥ ·) := by
    rw [List.pairwise_map]
    simp
  have hget : ∀ {i : ℕ} {e : ℚ}, edges[i]? = some e → (edges.map fun (e : ℚ) => (e : ℝ))[i]? = some (e : ℝ) := by
    intro i e he; rw [List.getElem?_map, he]; rfl
  by_cases h : edges.Pairwise (· ≤ ·)
  · set c := (edges.map fun (e : ℚ) => (e : ℝ)).countP (fun b => decide (b ≤ (x : ℝ))) with hc
    have hcl : c ≤ edges.length := by
      have := List.countP_le_length (p := fun b => decide (b ≤ (x : ℝ))) (l := edges.map fun (e : ℚ) => (e : ℝ))
      rwa [List.length_map] at this
    have hcount : ∀ {i : ℕ} {e : ℚ}, edges[i]? = some e → (i < c ↔ e ≤ x) := by
      intro i e he
      rw [hc, countP_sorted _ (hcast.mpr h) _ i _ (hget he)]
      exact_mod_cast Iff.rfl
    refine ⟨c - 1, ?_, by omega, Or.inl ⟨h, ?_, ?_⟩⟩
    · simp only [binOf, npDigitize, if_pos (hcast.mpr h), bind, Except.bind, pure, Except.pure, ← hc]
      congr 1
      omega
    · rcases Nat.eq_zero_or_pos c with hz | hz
      · left; omega
      · right
        have he : edges[c - 1]? = some (edges[c - 1]'(by omega)) := List.getElem?_eq_getElem _
        exact ⟨_, he, (hcount he).mp (by omega)⟩
    · intro e he
      have := (hcount he).not.mp (by omega)
      exact not_le.mp this
  · have h' : edges.Pairwise (· ≥ ·) := hs.resolve_left h
    set c := (edges.map fun (e : ℚ) => (e : ℝ)).countP (fun b => decide ((x : ℝ) < b)) with hc
    have hcl : c ≤ edges.length := by
      have := List.countP_le_length (p := fun b => decide ((x : ℝ) < b)) (l := edges.map fun (e : ℚ) => (e : ℝ))
      rwa [List.length_map] at this
    have hcount : ∀ {i : ℕ} {e : ℚ}, edges[i]? = some e → (i < c ↔ x < e) := by
      intro i e he
      rw [hc, countP_prefix _ _ ((hcast'.mpr h').imp fun {a b} hab hb => by
        simp only [decide_eq_true_eq] at hb ⊢; exact lt_of_lt_of_le hb hab) i _ (hget he), decide_eq_true_eq]
      exact_mod_cast Iff.rfl
    refine ⟨c - 1, ?_, by omega, Or.inr ⟨h, h', ?_, ?_⟩⟩
    · simp only [binOf, npDigitize, if_neg (fun hx => h (hcast.mp hx)), if_pos (hcast'.mpr h'), bind, Except.bind,
        pure, Except.pure, ← hc]
      congr 1
      omega
    · rcases Nat.eq_zero_or_pos c with hz | hz
      · left; omega
      · right
        have he : edges[c - 1]? = some (edges[c - 1]'(by omega)) := List.getElem?_eq_getElem _
        exact ⟨_, he, (hcount he).mp (by omega)⟩
    · intro e he
      have := (hcount he).not.mp (by omega)
      exact not_lt.mp this

/-! ### what is required and what results -/

/-- A distribution of bins: consistent, with readable names, a variable to each
axis, no empty axis and sorted edges. -/
structure Spec.Bins (fmt : Val → Str) (b : Dist) : Prop where
  ne : b.vals ≠ []
  consistent : Spec.Consistent b
  dimNodup : b.dims.keys.Nodup
  dimKeys : ∀ k ∈ b.dims.keys, k ∈ b.vals.keys
  names : ∀ k v, Dict.get? b.vals k = some v → k ∉ disallowed ∧ Spec.Entry k (k ++ "=[]".toList) ∧
    (v.issingleton = true → Spec.Entry k (eqText fmt k v))
  own : ∀ k k' a, Dict.get? b.dims k = some (some a) → Dict.get? b.dims k' = some (some a) → k = k'
  pos : ∀ n ∈ b.shape, 0 < n
  sorted : ∀ k s edges, Dict.get? b.vals k = some (.arr s edges) →
    edges.Pairwise (· ≤ ·) ∨ edges.Pairwise (· ≥ ·)

/-- A mapping for these bins: for every array variable of the bins one value for
each entry of the distribution; nothing that is not among the bins. -/
structure Spec.Mapping (d : PD) (b : Dist) (mapping : Dict Str Val) : Prop where
  nodup : mapping.keys.Nodup
  known : ∀ k ∈ mapping.keys, k ∈ b.vals.keys
  arrays : ∀ k a, Dict.get? b.dims k = some (some a) →
    ∃ data, Dict.get? mapping k = some (.arr d.shape data) ∧ data.length = d.shape.prod

/-- Entry `i` of the distribution is mapped into entry `j` of the bins. -/
def Spec.Lands (d : PD) (b : Dist) (mapping : Dict Str Val) (i j : List ℕ) : Prop :=
  ∀ k a s edges data, Dict.get? b.dims k = some (some a) → Dict.get? b.vals k = some (.arr s edges) →
    Dict.get? mapping k = some (.arr d.shape data) →
    ∃ n, j[a]? = some n ∧ Spec.InBin edges (data.getD (ravelIx d.shape i) 0) n

/-- The result: the variables, values and axes of the bins, the scale of the
distribution, and in each entry the total probability of what was mapped there;
every entry of the distribution is mapped to exactly one entry of the bins. -/
structure Spec.Remarginalised (d : PD) (b : Dist) (mapping : Dict Str Val) (r : PD) : Prop where
  keys : r.keylist = b.vals.keys
  marg : r.marg.keys = b.vals.keys
  cond : r.cond = []
  values : ∀ k, r.values k = (Dict.get? b.vals k).map Val.flat
  axis : ∀ k, r.axis k = (Dict.get? b.dims k).join
  shape : r.shape = b.shape
  scale : r.pscale = d.pscale
  entry : ∃ T : List ℕ → List ℕ,
    (∀ i ∈ idx d.shape, T i ∈ idx b.shape ∧ Spec.Lands d b mapping i (T i) ∧
      ∀ j ∈ idx b.shape, Spec.Lands d b mapping i j → j = T i) ∧
    ∀ j ∈ idx b.shape, Spec.Writable d.pscale (∑ i ∈ (idx d.shape).filter (fun i => T i = j), d.at i) →
      r.at j = ∑ i ∈ (idx d.shape).filter (fun i => T i = j), d.at i

/-- C24 as intended, for distributions with conditions too: these remain, and are
not looked at by the mapping. -/
def C24_claim : Prop :=
  ∀ (fmt : Val → Str) (d : PD) (b : Dist) (mapping : Dict Str Val), d.WF fmt → Spec.Readable d →
    d.dist.issingleton = false → Spec.Bins fmt b → Spec.Mapping d b mapping →
    (∀ k ∈ d.cond.keys, k ∉ b.vals.keys) →
    ∃ r, d.remarginalise fmt b mapping = .ok r ∧ r.marg.keys = b.vals.keys ∧ r.cond.keys = d.cond.keys

theorem shapesAgree_self (s : List ℕ) : shapesAgree s s = .ok true := by
  simp [shapesAgree]

theorem sum_map_indices (s : List ℕ) (f : List ℕ → ℝ) : ((indices s).map f).sum = ∑ i ∈ idx s, f i := by
  rw [idx, List.sum_toFinset _ (nodup_indices _)]


/-- The bin chosen, as a function. -/
noncomputable def binIx (edges : List ℚ) (x : ℚ) : ℕ :=
  match binOf edges x with
  | .ok n => n
  | .error _ => 0

theorem binIx_ok {edges : List ℚ} (hne : edges ≠ []) (hs : edges.Pairwise (· ≤ ·) ∨ edges.Pairwise (· ≥ ·))
    (x : ℚ) : binOf edges x = .ok (binIx edges x) ∧ Spec.InBin edges x (binIx edges x) := by
  obtain ⟨n, h1, h2⟩ := binOf_ok hne hs x
  have : binIx edges x = n := by rw [binIx, h1]
  rw [this]
  exact ⟨h1, h2⟩

theorem ravel_rescaled {fmt : Val → Str} {d : PD} (h : d.WF fmt) (hr : Spec.Readable d) :
    ∃ P, rescaleArr d.prob d.pscale.spec (.flt 1) = .ok P ∧ P.ravel = (indices d.shape).map d.at := by
  refine ⟨d.prob.map (fun x => rescaleE x d.pscale (.lin 1)), ?_, ?_⟩
  · simp [rescaleArr, h.stable, evalPscale_one, bind, Except.bind, pure, Except.pure]
  · rw [Arr.ravel, show (d.prob.map (fun x => rescaleE x d.pscale (.lin 1))).shape = d.shape from h.probShape]
    apply List.map_congr_left
    intro i hi
    exact rescaleE_to_one _ _ hr.1 h.stable (hr.2 i (by rw [idx, List.mem_toFinset]; exact hi))

theorem map_range_unravel (s : List ℕ) : (List.range s.prod).map (unravelIx s) = indices s := by
  apply List.ext_getElem?
  intro n
  by_cases hn : n < s.prod
  · rw [List.getElem?_map, List.getElem?_range hn, getElem?_indices hn]; rfl
  · rw [List.getElem?_eq_none (by simpa using hn), List.getElem?_eq_none (by rw [length_indices]; omega)]

theorem zip_map_map {α β γ : Type _} (f : α → β) (g : α → γ) (l : List α) :
    (l.map f).zip (l.map g) = l.map fun x => (f x, g x) := by
  induction l with
  | nil => rfl
  | cons x l ih => simp [ih]

section
variable {fmt : Val → Str} {d : PD} {b : Dist} {mapping : Dict Str Val}

theorem Spec.Bins.edges (hb : Spec.Bins fmt b) {k : Str} {a : ℕ} (hk : Dict.get? b.dims k = some (some a)) :
    ∃ s edges, Dict.get? b.vals k = some (.arr s edges) ∧ b.shape[a]? = some edges.length ∧ edges ≠ [] ∧
      a < b.ndim ∧ Spec.OneAxis b.ndim a edges.length s ∧
      (edges.Pairwise (· ≤ ·) ∨ edges.Pairwise (· ≥ ·)) := by
  obtain ⟨v, hv⟩ := Dict.get?_of_mem_keys (hb.dimKeys k (Dict.mem_keys_of_get? hk))
  obtain ⟨s, edges, rfl, h1, h2⟩ := hb.consistent.array k v a hv hk
  have hlt : a < b.shape.length := by
    by_contra hc; rw [List.getElem?_eq_none (by omega)] at h2; simp at h2
  refine ⟨s, edges, hv, h2, ?_, by rw [← hb.consistent.rank]; exact hlt, h1, hb.sorted k s edges hv⟩
  rintro rfl
  have := hb.pos _ (List.mem_of_getElem? h2)
  simp at this

theorem remCheck_ok (hb : Spec.Bins fmt b) (hm : Spec.Mapping d b mapping) :
    mapping.mapM (remCheck d b) = .ok (mapping.map fun _ => ()) := by
  apply mapM_ok
  rintro ⟨k, v⟩ hkv
  have hg : Dict.get? mapping k = some v := Dict.get?_of_mem hm.nodup hkv
  have hk := hm.known k (Dict.mem_keys_of_get? hg)
  obtain ⟨w, hw⟩ := Dict.get?_of_mem_keys hk
  obtain ⟨o, ho, _⟩ := hb.consistent.entry k w hw
  rcases o with _ | a
  · simp [remCheck, dimOf, ho, bind, Except.bind, pure, Except.pure]
  · obtain ⟨data, h1, h2⟩ := hm.arrays k a ho
    rw [hg] at h1
    simp only [Option.some.injEq] at h1
    subst h1
    simp [remCheck, dimOf, ho, bind, Except.bind, pure, Except.pure, shapesAgree_self, hk]

/-- The edges of a variable of the bins. -/
def edgesOf (b : Dist) (k : Str) : List ℚ :=
  match Dict.get? b.vals k with
  | some (.arr _ e) => e
  | _ => []

/-- The mapped values of a variable. -/
def mappedOf (mapping : Dict Str Val) (k : Str) : List ℚ :=
  match Dict.get? mapping k with
  | some (.arr _ e) => e
  | _ => []

theorem remBins_ok (hb : Spec.Bins fmt b) (hm : Spec.Mapping d b mapping) :
    ∃ ix, b.dims.foldlM (remBins b mapping) (b.shape.map fun _ => none) = .ok ix ∧ ix.length = b.ndim ∧
      ∀ k a, Dict.get? b.dims k = some (some a) →
        ix[a]? = some (some ((mappedOf mapping k).map (binIx (edgesOf b k)))) := by
  obtain ⟨ix, h1, h2, h3⟩ := foldlM_prefix (f := remBins b mapping) (l := b.dims)
    (s0 := b.shape.map fun _ => none)
    (fun pre ix => ix.length = b.ndim ∧ ∀ k a, k ∈ Dict.keys pre → Dict.get? b.dims k = some (some a) →
        ix[a]? = some (some ((mappedOf mapping k).map (binIx (edgesOf b k)))))
    ⟨by simp [hb.consistent.rank], by simp⟩ (by
      rintro pre ⟨k, o⟩ post ix hl ⟨hI1, hI2⟩
      have hg : Dict.get? b.dims k = some o := Dict.get?_of_mem hb.dimNodup (by rw [hl]; simp)
      rcases o with _ | a
      · refine ⟨ix, rfl, hI1, ?_⟩
        intro k' a' hk' ha'
        rw [Dict.keys_append] at hk'
        simp only [Dict.keys_cons, Dict.keys_nil, List.mem_append, List.mem_singleton] at hk'
        rcases hk' with hk' | rfl
        · exact hI2 k' a' hk' ha'
        · rw [hg] at ha'; simp at ha'
      · obtain ⟨s, edges, e1, e2, e3, e4, _, e5⟩ := hb.edges hg
        obtain ⟨data, f1, f2⟩ := hm.arrays k a hg
        have hE : edgesOf b k = edges := by simp [edgesOf, e1]
        have hD : mappedOf mapping k = data := by simp [mappedOf, f1]
        have hmap : data.mapM (binOf edges) = .ok (data.map (binIx edges)) :=
          mapM_ok fun x _ => (binIx_ok e3 e5 x).1
        refine ⟨ix.set a (some (data.map (binIx edges))), ?_, by simpa using hI1, ?_⟩
        · simp only [remBins, getVal, e1, f1, ravelVal, hmap, bind, Except.bind, pure, Except.pure]
          rw [if_pos (by omega)]
        · intro k' a' hk' ha'
          by_cases haa : a' = a
          · subst haa
            have := hb.own k' k a' ha' hg
            subst this
            rw [List.getElem?_set_self (by omega), hE, hD]
          · rw [List.getElem?_set_ne (by omega)]
            rw [Dict.keys_append] at hk'
            simp only [Dict.keys_cons, Dict.keys_nil, List.mem_append, List.mem_singleton] at hk'
            rcases hk' with hk' | rfl
            · exact hI2 k' a' hk' ha'
            · rw [hg] at ha'
              simp only [Option.some.injEq] at ha'
              exact absurd ha'.symm haa)
  exact ⟨ix, h1, h2, fun k a hka => h3 k a (Dict.mem_keys_of_get? hka) hka⟩

/-- The target of every entry. -/
theorem remTargets_ok (hb : Spec.Bins fmt b) (hm : Spec.Mapping d b mapping) {ix : List (Option (List ℕ))}
    (hl : ix.length = b.ndim)
    (hix : ∀ k a, Dict.get? b.dims k = some (some a) →
        ix[a]? = some (some ((mappedOf mapping k).map (binIx (edgesOf b k))))) :
    ∃ T : List ℕ → List ℕ, (List.range d.shape.prod).mapM (remTarget ix) = .ok ((indices d.shape).map T) ∧
      ∀ i ∈ idx d.shape, T i ∈ idx b.shape ∧ Spec.Lands d b mapping i (T i) ∧
        ∀ j ∈ idx b.shape, Spec.Lands d b mapping i j → j = T i := by
  let T : List ℕ → List ℕ := fun i => ix.map fun l => (l.bind (·[ravelIx d.shape i]?)).getD 0
  have hcov : ∀ a < b.ndim, ∃ k, Dict.get? b.dims k = some (some a) := fun a ha => by
    obtain ⟨k, v, _, h2⟩ := hb.consistent.cover a ha; exact ⟨k, h2⟩
  have hentry : ∀ i ∈ idx d.shape, ∀ k a, Dict.get? b.dims k = some (some a) → ∀ s edges data,
      Dict.get? b.vals k = some (.arr s edges) → Dict.get? mapping k = some (.arr d.shape data) →
      (T i)[a]? = some (binIx edges (data.getD (ravelIx d.shape i) 0)) := by
    intro i hi k a hk s edges data he hd
    obtain ⟨data', f1, f2⟩ := hm.arrays k a hk
    rw [hd] at f1
    simp only [Option.some.injEq, Val.arr.injEq, true_and] at f1
    subst f1
    have hE : edgesOf b k = edges := by simp [edgesOf, he]
    have hD : mappedOf mapping k = data := by simp [mappedOf, hd]
    have hlt : ravelIx d.shape i < data.length := by rw [f2]; exact ravelIx_lt hi
    simp only [T, List.getElem?_map, hix k a hk, Option.map_some, hE, hD, Option.bind_some,
      List.getElem?_eq_getElem hlt, Option.getD_some, List.getD]
  have hlen : ∀ i, (T i).length = b.ndim := fun i => by simp [T, hl]
  refine ⟨T, ?_, ?_⟩
  · rw [← map_range_unravel, List.map_map]
    apply mapM_ok
    intro n hn
    rw [List.mem_range] at hn
    have : remTarget ix n = .ok (ix.map fun l => (l.bind (·[n]?)).getD 0) := by
      apply mapM_ok
      intro l hlm
      obtain ⟨a, ha⟩ := List.mem_iff_getElem?.mp hlm
      have halt : a < b.ndim := by
        rw [← hl]
        by_contra hc; rw [List.getElem?_eq_none (by omega)] at ha; simp at ha
      obtain ⟨k, hk⟩ := hcov a halt
      have := hix k a hk
      rw [ha] at this
      simp only [Option.some.injEq] at this
      subst this
      obtain ⟨data, f1, f2⟩ := hm.arrays k a hk
      have hD : mappedOf mapping k = data := by simp [mappedOf, f1]
      rw [hD]
      simp [List.getElem?_eq_getElem (f2.symm ▸ hn : n < data.length)]
    rw [this]
    simp only [T, Function.comp, ravel_unravel hn]
  · intro i hi
    refine ⟨?_, ?_, ?_⟩
    · rw [mem_idx_iff]
      refine ⟨by rw [hlen, hb.consistent.rank], ?_⟩
      intro a x m hx hma
      have halt : a < b.ndim := by
        rw [← hlen i]
        by_contra hc; rw [List.getElem?_eq_none (by omega)] at hx; simp at hx
      obtain ⟨k, hk⟩ := hcov a halt
      obtain ⟨s, edges, e1, e2, e3, e4, _, e5⟩ := hb.edges hk
      obtain ⟨data, f1, f2⟩ := hm.arrays k a hk
      rw [hentry i hi k a hk s edges data e1 f1] at hx
      rw [e2] at hma
      simp only [Option.some.injEq] at hx hma
      subst hx hma
      exact (binIx_ok e3 e5 _).2.1
    · intro k a s edges data hk he hd
      obtain ⟨s', edges', e1, e2, e3, e4, _, e5⟩ := hb.edges hk
      rw [he] at e1
      simp only [Option.some.injEq, Val.arr.injEq] at e1
      obtain ⟨rfl, rfl⟩ := e1
      exact ⟨_, hentry i hi k a hk s edges data he hd, (binIx_ok e3 e5 _).2⟩
    · intro j hj hL
      apply List.ext_getElem?
      intro a
      by_cases ha : a < b.ndim
      · obtain ⟨k, hk⟩ := hcov a ha
        obtain ⟨s, edges, e1, e2, e3, e4, _, e5⟩ := hb.edges hk
        obtain ⟨data, f1, f2⟩ := hm.arrays k a hk
        obtain ⟨n, hn, hbin⟩ := hL k a s edges data hk e1 f1
        rw [hn, hentry i hi k a hk s edges data e1 f1, hbin.unique (binIx_ok e3 e5 _).2]
      · rw [List.getElem?_eq_none, List.getElem?_eq_none]
        · rw [hlen]; omega
        · rw [length_of_mem_idx hj, hb.consistent.rank]; omega

/-- The text of a variable of the bins in the name of the result. -/
def binText (fmt : Val → Str) (k : Str) (v : Val) : Str :=
  if v.issingleton then eqText fmt k v else k ++ "=[]".toList

theorem keys_remText (fmt : Val → Str) (vals : Dict Str Val) :
    Dict.keys (vals.map fun kv => (kv.1, remText fmt kv)) = vals.keys :=
  Dict.keys_map (fun k v => remText fmt (k, v)) vals

theorem get?_remText (fmt : Val → Str) (vals : Dict Str Val) (k : Str) :
    Dict.get? (vals.map fun kv => (kv.1, remText fmt kv)) k = (Dict.get? vals k).map fun v => remText fmt (k, v) :=
  Dict.get?_map (fun k v => remText fmt (k, v)) vals k

theorem axisMax {nd a n : ℕ} {s : List ℕ} (h : Spec.OneAxis nd a n s) (hn : 0 < n) : n = s.foldl max 0 := by
  obtain ⟨h1, h2, h3⟩ := h
  apply le_antisymm
  · exact (foldl_max_le s 0).2 n (List.mem_of_getElem? h2)
  · refine foldl_max_bound s n ?_ 0 (by omega)
    intro x hx
    obtain ⟨c, hc⟩ := List.mem_iff_getElem?.mp hx
    have hclt : c < nd := by
      rw [← h1]
      by_contra hcon; rw [List.getElem?_eq_none (by omega)] at hc; simp at hc
    by_cases hca : c = a
    · subst hca; rw [h2] at hc; simp only [Option.some.injEq] at hc; omega
    · rw [h3 c hclt hca] at hc; simp only [Option.some.injEq] at hc; omega

theorem Spec.Bins.build (hb : Spec.Bins fmt b) : BuildArgs fmt
    (b.vals.map fun kv => (kv.1, binText fmt kv.1 kv.2)) []
    b.vals b.dims b.shape where
  ne := hb.ne
  nodup := hb.consistent.nodup
  allowed := fun k hk => by
    obtain ⟨v, hv⟩ := Dict.get?_of_mem_keys hk
    exact (hb.names k v hv).1
  margSide := by
    refine ⟨by rw [Dict.keys_map]; exact hb.consistent.nodup, ?_⟩
    intro kv hkv
    obtain ⟨⟨k, v⟩, hm, rfl⟩ := List.mem_map.mp hkv
    obtain ⟨_, h2, h3⟩ := hb.names k v (Dict.get?_of_mem hb.consistent.nodup hm)
    simp only [binText]
    split_ifs with hs
    · exact h3 hs
    · exact h2
  condSide := ⟨by simp, by simp⟩
  disj := by simp
  keys := by intro k; rw [Dict.keys_map]; simp
  dimNodup := hb.dimNodup
  dimKeys := hb.dimKeys
  single := by
    intro k v hv hs
    obtain ⟨o, ho, hon⟩ := hb.consistent.entry k v hv
    refine ⟨by rw [ho, hon.mpr hs]; rfl, Or.inl ?_⟩
    rw [Dict.get?_map, hv]
    simp [binText, hs]
  array := by
    intro k v hv hs
    obtain ⟨o, ho, hon⟩ := hb.consistent.entry k v hv
    rcases o with _ | a
    · have := hon.mp rfl
      rw [hs] at this; simp at this
    · obtain ⟨s, edges, e1, e2, e3, e4, e6, e5⟩ := hb.edges ho
      rw [hv] at e1
      simp only [Option.some.injEq] at e1
      exact ⟨s, edges, a, e1, axisMax e6 (List.length_pos_of_ne_nil e3), ho, e2⟩
  cover := by
    intro a ha
    rw [hb.consistent.rank] at ha
    obtain ⟨k, v, _, h2⟩ := hb.consistent.cover a ha
    exact ⟨k, by rw [h2]; rfl⟩

/-- C24, proved part: a distribution without conditions and bins with a variable
to each axis. -/
theorem C24_remarginalise_partial (fmt : Val → Str) (d : PD) (b : Dist) (mapping : Dict Str Val)
    (h : d.WF fmt) (hr : Spec.Readable d) (hns : d.dist.issingleton = false) (hb : Spec.Bins fmt b)
    (hm : Spec.Mapping d b mapping) (hc : d.cond = []) :
    ∃ r, d.remarginalise fmt b mapping = .ok r ∧ r.WF fmt ∧ Spec.Remarginalised d b mapping r := by
  obtain ⟨ix, i1, i2, i3⟩ := remBins_ok hb hm
  obtain ⟨T, t1, t2⟩ := remTargets_ok hb hm i2 i3
  obtain ⟨P, p1, p2⟩ := ravel_rescaled h hr
  let R : Arr := ⟨b.shape, fun j => ((((indices d.shape).map T).zip ((indices d.shape).map d.at)).map
    fun tp => if tp.1 = j then tp.2 else 0).sum⟩
  have hR : remAccumulate b.shape ((indices d.shape).map T) P.ravel = .ok R := by
    rw [p2, remAccumulate, if_pos]
    rw [List.all_eq_true]
    intro t ht
    obtain ⟨i, hi, rfl⟩ := List.mem_map.mp ht
    simpa using (t2 i (by rw [idx, List.mem_toFinset]; exact hi)).1
  have hRg : ∀ j, R.get j = ∑ i ∈ (idx d.shape).filter (fun i => T i = j), d.at i := by
    intro j
    show ((((indices d.shape).map T).zip ((indices d.shape).map d.at)).map
      fun tp => if tp.1 = j then tp.2 else 0).sum = _
    rw [zip_map_map, List.map_map, sum_map_indices, Finset.sum_filter]
    rfl
  have hres : rescaleArr R (.flt 1) d.pscale.spec = .ok (R.map (fun x => rescaleE x (.lin 1) d.pscale)) := by
    simp [rescaleArr, h.stable, evalPscale_one, bind, Except.bind, pure, Except.pure]
  have hbuild := hb.build
  obtain ⟨r, r1, r2, r3, r4, r5, r6, r7, r8, r9⟩ := pdInit_ok hbuild
    (R.map (fun x => rescaleE x (.lin 1) d.pscale)) rfl d.pscale.spec d.pscale h.stable
  have hname : remName fmt d b = margcondStr (b.vals.map fun kv => (kv.1, remText fmt kv)) [] := by
    have hbar : '|' ∉ d.name := by
      rw [h.name, hc]
      simp only [margcondStr, Dict.vals, List.map_nil]
      exact (side_chars d.marg h.margSide).1
    simp only [remName, if_neg hbar, margcondStr, Dict.vals, List.map_map]
    rfl
  have hside : Spec.Side (b.vals.map fun kv => (kv.1, remText fmt kv)) := by
    refine ⟨by rw [keys_remText]; exact hb.consistent.nodup, ?_⟩
    intro kv hkv
    obtain ⟨⟨k, v⟩, hmm, rfl⟩ := List.mem_map.mp hkv
    obtain ⟨_, h2, h3⟩ := hb.names k v (Dict.get?_of_mem hb.consistent.nodup hmm)
    cases v with
    | scalar x => exact h3 rfl
    | _ => exact h2
  have hnamed : pdInit fmt (remName fmt d b) b.vals (some b.dims)
      (R.map (fun x => rescaleE x (.lin 1) d.pscale)) d.pscale.spec = .ok r := by
    rw [hname, pdInit_named hbuild hside ⟨by simp, by simp⟩ (by rw [keys_remText, Dict.keys_map]) rfl ?_, r1]
    intro k v hv hs
    refine ⟨?_, rfl⟩
    rw [get?_remText, Dict.get?_map, hv]
    cases v with
    | scalar x => simp [Val.issingleton] at hs
    | _ => simp [remText, binText, hs]
  refine ⟨r, ?_, r2, ?_⟩
  · unfold PD.remarginalise
    rw [hns]
    simp only [Bool.false_eq_true, if_false, remCheck_ok hb hm, i1, p1, h.size, t1, hR, hres, hc, bind, Except.bind,
      Dict.keys_nil, List.foldlM_nil, pure, Except.pure]
    exact hnamed
  · refine ⟨?_, ?_, r4, hbuild.values r5, r6, r7, r9, T, t2, ?_⟩
    · show Dict.keys r.vals = _
      rw [r5, Dict.keys_map]
    · rw [r3, Dict.keys_map]
    · intro j hj hw
      have : r.at j = Spec.value d.pscale (rescaleE (R.get j) (.lin 1) d.pscale) := by
        rw [PD.at, r8, r9]; rfl
      rw [this, hRg]
      exact rescaleE_from_one _ _ hr.1 h.stable hw

/-- C24: the total probability is conserved. -/
theorem C24_mass (d : PD) (b : Dist) (mapping : Dict Str Val) (r : PD) (h : Spec.Remarginalised d b mapping r)
    (hw : ∀ s : Finset (List ℕ), s ⊆ idx d.shape → Spec.Writable d.pscale (∑ i ∈ s, d.at i)) :
    ∑ j ∈ idx r.shape, r.at j = ∑ i ∈ idx d.shape, d.at i := by
  obtain ⟨T, h1, h2⟩ := h.entry
  rw [h.shape, Finset.sum_congr rfl fun j hj => h2 j hj (hw _ (Finset.filter_subset _ _))]
  exact Finset.sum_fiberwise_of_maps_to (fun i hi => (h1 i hi).1) _

/-! ### conditions -/

theorem nameLoop_nocond (fmt : Val → Str) (l : Dict Str Val) :
    ∀ (m m' c' : Dict Str Str), l.foldlM (nameStep fmt) (m, []) = .ok (m', c') → c' = [] := by
  induction l with
  | nil =>
    intro m m' c' h
    simp only [List.foldlM_nil, pure, Except.pure, Except.ok.injEq, Prod.mk.injEq] at h
    exact h.2.symm
  | cons kv l ih =>
    intro m m' c' h
    rw [List.foldlM_cons] at h
    rcases hs : nameStep fmt (m, []) kv with e | ⟨m1, c1⟩
    · simp [hs, bind, Except.bind] at h
    · simp only [hs, bind, Except.bind] at h
      have : c1 = [] := by
        simp only [nameStep, Dict.keys_nil, List.not_mem_nil, if_false] at hs
        split_ifs at hs <;> simp only [Except.ok.injEq, Prod.mk.injEq] at hs <;> exact hs.2.symm
      subst this
      exact ih m1 m' c' h

theorem strMargcond_nobar {name : Str} {mc : Dict Str Str × Dict Str Str} (hb : '|' ∉ name)
    (h : strMargcond name = .ok mc) : mc.2 = [] := by
  have hp : ∀ lt, '|' ∉ parenSlice name lt := by
    intro lt hc
    unfold parenSlice at hc
    split_ifs at hc
    · exact hb (List.mem_of_mem_take hc)
    · simp at hc
  unfold strMargcond at h
  split_ifs at h with h0
  · simp only [Except.ok.injEq] at h; rw [← h]
  · rcases hl : findChar name '(' with _ | lt <;> rcases hr : findChar name ')' with _ | rt <;>
      simp only [hl, hr, bind, Except.bind, pure, Except.pure, if_neg hb] at h
    · simp only [Except.ok.injEq] at h; rw [← h]
    · simp at h
    · simp at h
    · by_cases hlt : lt < rt
      · simp only [if_pos hlt, if_neg (hp lt), Except.ok.injEq] at h; rw [← h]
      · simp [if_neg hlt] at h

/-- The parts of a split text do not contain what it was split at. -/
theorem notMem_splitOn {c : Char} (l : Str) : ∀ s ∈ l.splitOn c, c ∉ s := by
  induction l with
  | nil => simp
  | cons x l ih =>
    intro s hs
    rw [List.splitOn_cons_eq_if_modifyHead] at hs
    split_ifs at hs with hx
    · simp only [List.mem_cons] at hs
      rcases hs with rfl | hs
      · simp
      · exact ih s hs
    · rcases hl : l.splitOn c with _ | ⟨t, ts⟩
      · simp [hl] at hs
      · rw [hl] at ih hs
        simp only [List.modifyHead_cons, List.mem_cons] at hs
        rcases hs with rfl | hs
        · have := ih t (by simp)
          simp only [List.mem_cons, not_or]
          exact ⟨fun hc => hx (by simp [hc]), this⟩
        · exact ih s (by simp [hs])

/-- C24: the name of the result has no conditional part, so whatever is returned
has no conditions, however many the distribution had. -/
theorem C24_conditions_lost (fmt : Val → Str) (d : PD) (b : Dist) (mapping : Dict Str Val) (r : PD)
    (hb : Spec.Bins fmt b) (h : d.remarginalise fmt b mapping = .ok r) : r.cond = [] := by
  have hbar : '|' ∉ remName fmt d b := by
    have h1 : '|' ∉ [','].intercalate (b.vals.map (remText fmt)) := by
      apply notMem_intercalate (by decide)
      intro s hs
      obtain ⟨⟨k, v⟩, hm, rfl⟩ := List.mem_map.mp hs
      obtain ⟨_, h2, h3⟩ := hb.names k v (Dict.get?_of_mem hb.consistent.nodup hm)
      cases v with
      | scalar x => exact (h3 rfl).bar
      | _ => exact h2.bar
    unfold remName
    split_ifs
    · simp only [List.mem_append, not_or]
      refine ⟨h1, ?_⟩
      rcases hg : (d.name.splitOn '|')[1]? with _ | s
      · simp [List.getD, hg]
      · simp only [List.getD, hg, Option.getD_some]
        exact notMem_splitOn _ s (List.mem_of_getElem? hg)
    · exact h1
  unfold PD.remarginalise at h
  split_ifs at h
  simp only [bind, Except.bind] at h
  repeat' split at h
  all_goals first | (simp at h; done) | skip
  obtain ⟨mc, m1, m2, _⟩ := pdInit_inv' h
  have := strMargcond_nobar hbar m1
  rw [show mc = (mc.1, []) from Prod.ext rfl this] at m2
  exact nameLoop_nocond fmt _ _ _ _ m2

theorem intercalate_glue (A B : List Str) (x y : Str) :
    [','].intercalate (A ++ [x]) ++ [','].intercalate (y :: B) = [','].intercalate (A ++ (x ++ y) :: B) := by
  have hcons : ∀ (s : Str) (l : List Str), l ≠ [] →
      [','].intercalate (s :: l) = s ++ ',' :: [','].intercalate l := by
    intro s l hl
    rcases l with _ | ⟨t, l⟩
    · exact absurd rfl hl
    · simp [List.intercalate]
  induction A with
  | nil =>
    rcases B with _ | ⟨t, B⟩
    · simp [List.intercalate]
    · simp [List.intercalate]
  | cons s A ih =>
    rw [List.cons_append, List.cons_append, hcons s _ (by simp), hcons s _ (by simp), ← ih]
    simp

theorem remCond_inv (d : PD) (ks : List Str) : ∀ (st st' : Dict Str Val × Dict Str (Option ℕ)),
    ks.foldlM (remCond d) st = .ok st' → (Dict.keys st.1).Nodup →
      (Dict.keys st'.1).Nodup ∧
      (∀ k v, Dict.get? d.vals k = some v → k ∈ ks ∨ Dict.get? st.1 k = some v → Dict.get? st'.1 k = some v) := by
  induction ks with
  | nil =>
    intro st st' h hn
    simp only [List.foldlM_nil, pure, Except.pure, Except.ok.injEq] at h
    subst h
    exact ⟨hn, by simp⟩
  | cons k0 ks ih =>
    intro st st' h hn
    rw [List.foldlM_cons] at h
    rcases hv : Dict.get? d.vals k0 with _ | v0
    · simp [remCond, getVal, hv, bind, Except.bind] at h
    · rcases ho : dimOf d.dims k0 with e | o
      · simp [remCond, getVal, hv, ho, bind, Except.bind] at h
      · simp only [remCond, getVal, hv, ho, bind, Except.bind, pure, Except.pure] at h
        obtain ⟨g1, g2⟩ := ih _ st' h (Dict.nodup_set hn)
        refine ⟨g1, ?_⟩
        intro k v hkv hor
        apply g2 k v hkv
        simp only [List.mem_cons] at hor
        by_cases hk : k = k0
        · subst hk
          right
          rw [hv] at hkv
          simp only [Dict.get?_set, if_true]
          exact hkv
        · rcases hor with (h1 | h1) | h1
          · exact absurd h1 hk
          · exact Or.inl h1
          · right
            simp only [Dict.get?_set]
            rw [if_neg (by tauto)]
            exact h1

/-- The names actually given to the result: the text of the first condition is
glued to that of the last variable of the bins. -/
theorem remName_parse (h : d.WF fmt) (hb : Spec.Bins fmt b) (hdis : ∀ k ∈ d.cond.keys, k ∉ b.vals.keys)
    {c s : Str} {rest : Dict Str Str} (hc : d.cond = (c, s) :: rest) :
    ∃ M, strMargcond (remName fmt d b) = .ok (M, []) ∧ M.keys = b.vals.keys ++ rest.keys := by
  obtain ⟨init, ⟨kl, vl⟩, hbv⟩ : ∃ init last, b.vals = init ++ [last] :=
    ⟨b.vals.dropLast, b.vals.getLast hb.ne, (List.dropLast_append_getLast hb.ne).symm⟩
  have htext : ∀ k v, (k, v) ∈ b.vals → Spec.Entry k (remText fmt (k, v)) ∧
      ∃ u, remText fmt (k, v) = k ++ '=' :: u := by
    intro k v hm
    obtain ⟨_, h2, h3⟩ := hb.names k v (Dict.get?_of_mem hb.consistent.nodup hm)
    cases v with
    | scalar x => exact ⟨h3 rfl, _, rfl⟩
    | _ => exact ⟨h2, "[]".toList, rfl⟩
  have hkey : ∀ k v, (k, v) ∈ b.vals → k ≠ [] ∧ '=' ∉ k := by
    intro k v hm
    obtain ⟨h1, u, hu⟩ := htext k v hm
    rcases h1.key with ⟨_, h2⟩ | ⟨h2, _⟩
    · exact h2
    · have := congrArg List.length (hu.symm.trans h2)
      simp at this
  obtain ⟨l1, ul, hul⟩ := htext kl vl (by rw [hbv]; simp)
  obtain ⟨l2, l3⟩ := hkey kl vl (by rw [hbv]; simp)
  have hs := h.condSide
  rw [hc] at hs
  have hse : Spec.Entry c s := hs.2 (c, s) (by simp)
  let M : Dict Str Str := (init.map fun kv => (kv.1, remText fmt kv)) ++
    (kl, remText fmt (kl, vl) ++ s) :: rest
  have hMk : Dict.keys M = b.vals.keys ++ rest.keys := by
    simp only [M, hbv, Dict.keys, List.map_append, List.map_cons, List.map_nil, List.map_map, List.append_assoc,
      List.singleton_append]
    rfl
  have hside : Spec.Side M := by
    refine ⟨?_, ?_⟩
    · rw [hMk, List.nodup_append]
      have hcn := hs.1
      simp only [Dict.keys_cons, List.nodup_cons] at hcn
      refine ⟨hb.consistent.nodup, hcn.2, ?_⟩
      rintro k hk k' hk' rfl
      exact hdis k (by rw [hc, Dict.keys_cons]; simp [hk']) hk
    · intro kv hkv
      simp only [M, List.mem_append, List.mem_map, List.mem_cons] at hkv
      rcases hkv with ⟨⟨k, v⟩, hm, rfl⟩ | rfl | hkv
      · exact (htext k v (by rw [hbv]; simp [hm])).1
      · exact ⟨by simp [l1.nonempty], by simp [l1.comma, hse.comma], by simp [l1.bar, hse.bar],
          by simp [l1.lparen, hse.lparen], by simp [l1.rparen, hse.rparen],
          Or.inl ⟨⟨ul ++ s, by rw [hul]; simp⟩, l2, l3⟩⟩
      · exact hs.2 kv (by simp [hkv])
  have hname : remName fmt d b = margcondStr M [] := by
    have hcv : [','].intercalate d.cond.vals ≠ [] := by
      intro h0
      have h1 := splitNames_side d.cond h.condSide
      rw [h0, hc] at h1
      simp [splitNames] at h1
    have hdn : d.name = [','].intercalate d.marg.vals ++ '|' :: [','].intercalate d.cond.vals := by
      rw [h.name]; simp only [margcondStr, if_neg hcv]
    have hsplit : (d.name.splitOn '|').getD 1 [] = [','].intercalate d.cond.vals := by
      rw [hdn, List.splitOn_append_cons_self_of_not_mem (side_chars d.marg h.margSide).1,
        List.splitOn_eq_singleton (side_chars d.cond h.condSide).1]
      rfl
    have hin : '|' ∈ d.name := by rw [hdn]; simp
    simp only [remName, if_pos hin, hsplit]
    rw [hbv, hc]
    have e1 : Dict.vals ((c, s) :: rest) = s :: Dict.vals rest := rfl
    rw [List.map_append, List.map_cons, List.map_nil, e1, intercalate_glue]
    simp only [margcondStr, Dict.vals, M, List.map_append, List.map_map, List.map_cons, List.map_nil]
    rfl
  exact ⟨M, by rw [hname]; exact C14_render_parse M [] hside ⟨by simp, by simp⟩, hMk⟩

theorem remarginalise_inv {r : PD} (hr : d.remarginalise fmt b mapping = .ok r) :
    ∃ vd P, d.cond.keys.foldlM (remCond d) (b.vals, b.dims) = .ok vd ∧
      pdInit fmt (remName fmt d b) vd.1 (some vd.2) P d.pscale.spec = .ok r := by
  unfold PD.remarginalise at hr
  split_ifs at hr
  simp only [bind, Except.bind] at hr
  rcases h1 : List.mapM (remCheck d b) mapping with e | x1 <;> simp only [h1] at hr
  · simp at hr
  rcases h2 : List.foldlM (remBins b mapping) (b.shape.map fun _ => none) b.dims with e | x2 <;> simp only [h2] at hr
  · simp at hr
  rcases h3 : rescaleArr d.prob d.pscale.spec (.flt 1) with e | x3 <;> simp only [h3] at hr
  · simp at hr
  rcases h4 : (List.range d.dist.size).mapM (remTarget x2) with e | x4 <;> simp only [h4] at hr
  · simp at hr
  rcases h5 : remAccumulate b.shape x4 x3.ravel with e | x5 <;> simp only [h5] at hr
  · simp at hr
  rcases h6 : d.cond.keys.foldlM (remCond d) (b.vals, b.dims) with e | vd <;> simp only [h6] at hr
  · simp at hr
  rcases h7 : rescaleArr x5 (.flt 1) d.pscale.spec with e | x7 <;> simp only [h7] at hr
  · simp at hr
  exact ⟨vd, x7, rfl, hr⟩

/-- C24: the first condition's name is lost altogether: the variable stays among
the values but is neither marginal nor conditional; further conditions turn into
marginal variables.  A fixed value as the first condition is not accepted. -/
theorem C24_condition_unnamed (fmt : Val → Str) (d : PD) (b : Dist) (mapping : Dict Str Val) (r : PD)
    (h : d.WF fmt) (hb : Spec.Bins fmt b) (hdis : ∀ k ∈ d.cond.keys, k ∉ b.vals.keys)
    {c s : Str} {rest : Dict Str Str} (hc : d.cond = (c, s) :: rest)
    (hr : d.remarginalise fmt b mapping = .ok r) :
    r.marg.keys = b.vals.keys ++ rest.keys ∧ r.cond = [] ∧ c ∈ r.keylist ∧
      ∀ v, Dict.get? d.vals c = some v → v.issingleton = false := by
  obtain ⟨M, m1, m2⟩ := remName_parse h hb hdis hc
  obtain ⟨vd, P, hvd, hinit⟩ := remarginalise_inv hr
  obtain ⟨mc, n1, n2, _⟩ := pdInit_inv' hinit
  obtain ⟨hdd, _, _, _⟩ := pdInit_inv hinit
  rw [m1] at n1
  simp only [Except.ok.injEq] at n1
  subst n1
  obtain ⟨g1, g2⟩ := remCond_inv d _ _ _ hvd hb.consistent.nodup
  have hcin : c ∈ d.cond.keys := by rw [hc]; simp
  obtain ⟨v, hv⟩ := Dict.get?_of_mem_keys ((h.keys c).mpr (Or.inr hcin))
  have hcv := g2 c v hv (Or.inl hcin)
  have hne : vd.1 ≠ [] := by rintro h0; rw [h0] at hcv; exact absurd hcv (by simp [Dict.get?])
  obtain ⟨_, _, q, _⟩ := distDims_inv g1 hne hdd
  have hkeys : Dict.keys r.dist.vals = Dict.keys vd.1 := by
    rw [q, Dict.keys_map, keys_fixVals]
  have hget : Dict.get? r.dist.vals c = some (placeVal vd.2 (maxDim vd.2) c v.fixNone) := by
    have hfv : Dict.get? (fixVals vd.1) c = some v.fixNone := by
      have := Dict.get?_map (fun (_ : Str) (v : Val) => v.fixNone) vd.1 c
      rw [hcv] at this
      exact this
    rw [q, Dict.get?_map, hfv]; rfl
  obtain ⟨k1, k2, k3, _⟩ := nameLoop_inv fmt r.dist.vals M [] r.marg r.cond (by rw [hkeys]; exact g1) (by simp) n2
  have hcond : r.cond = [] := nameLoop_nocond fmt _ _ _ _ n2
  refine ⟨k1.trans m2, hcond, ?_, ?_⟩
  · show c ∈ Dict.keys r.dist.vals
    rw [hkeys]; exact Dict.mem_keys_of_get? hcv
  · intro v' hv'
    rw [hv] at hv'
    simp only [Option.some.injEq] at hv'
    subst hv'
    by_contra hs
    have hs : v.issingleton = true := by simpa using hs
    have hfix : placeVal vd.2 (maxDim vd.2) c v.fixNone = v.fixNone ∧ v.fixNone.issingleton = true := by
      have : v.fixNone.issingleton = true := by cases v <;> simp_all [Val.fixNone, Val.issingleton]
      exact ⟨by simp [placeVal, this], this⟩
    rw [hfix.1] at hget
    have hcn := h.condSide.1
    rw [hc, Dict.keys_cons, List.nodup_cons] at hcn
    have hM : c ∈ M.keys := by
      rcases k3 c _ (Dict.get?_mem hget) hfix.2 with h1 | h1
      · rw [← k1]; exact Dict.mem_keys_of_get? h1
      · rw [hcond] at h1; exact absurd h1 (by simp [Dict.get?])
    rw [m2, List.mem_append] at hM
    rcases hM with h1 | h1
    · exact hdis c hcin h1
    · exact hcn.1 h1

/-- C24: a distribution with a fixed value as its first condition is always refused. -/
theorem C24_scalar_condition_raises (fmt : Val → Str) (d : PD) (b : Dist) (mapping : Dict Str Val)
    (h : d.WF fmt) (hb : Spec.Bins fmt b) (hdis : ∀ k ∈ d.cond.keys, k ∉ b.vals.keys)
    {c s : Str} {rest : Dict Str Str} (hc : d.cond = (c, s) :: rest) {v : Val}
    (hv : Dict.get? d.vals c = some v) (hs : v.issingleton = true) :
    Raises (d.remarginalise fmt b mapping) := by
  rcases hr : d.remarginalise fmt b mapping with e | r
  · exact ⟨e, rfl⟩
  · obtain ⟨_, _, _, h4⟩ := C24_condition_unnamed fmt d b mapping r h hb hdis hc hr
    have := h4 v hv
    rw [hs] at this
    simp at this

/-! ### a concrete case -/

/-- p(x) and p(x|y=3), with x = 0, 1, 2. -/
noncomputable def remPD (p : ℕ → ℝ) (cond : Bool) : PD :=
  if cond then
    ⟨"x|y=3".toList, [(['x'], ['x'])], [(['y'], "y=3".toList)],
     ⟨[(['x'], .arr [3] [0, 1, 2]), (['y'], .scalar 3)], [(['x'], some 0), (['y'], none)], 1, [3], [3], 3,
      [false, true], false⟩, ⟨[3], fun i => p (i.getD 0 0)⟩, .lin 1⟩
  else
    ⟨['x'], [(['x'], ['x'])], [],
     ⟨[(['x'], .arr [3] [0, 1, 2])], [(['x'], some 0)], 1, [3], [3], 3, [false], false⟩,
     ⟨[3], fun i => p (i.getD 0 0)⟩, .lin 1⟩

/-- Bins from 0 and from 1 for `z`. -/
def binsZ : Dist :=
  ⟨[(['z'], .arr [2] [0, 1])], [(['z'], some 0)], 1, [2], [2], 2, [false], false⟩

/-- `z = x²` for the three values of x. -/
def squareZ : Dict Str Val := [(['z'], .arr [3] [0, 1, 4])]

theorem remPD_wf (p : ℕ → ℝ) (cond : Bool) : (remPD p cond).WF (fun _ => ['3']) := by
  cases cond <;> exact PD.wf_of_check rfl rfl (by simp [remPD, PScale.spec, evalPscale_one])

theorem remPD_readable (p : ℕ → ℝ) (cond : Bool) : Spec.Readable (remPD p cond) := by
  cases cond <;> exact ⟨by simp [remPD, Spec.Valid], fun i _ => by simp [remPD, Spec.Unclamped]⟩

theorem binsZ_bins (fmt : Val → Str) : Spec.Bins fmt binsZ where
  ne := by simp [binsZ]
  consistent :=
    { nodup := by decide
      entry := by
        intro k v hv
        have := Dict.get?_mem hv
        simp only [binsZ, List.mem_singleton, Prod.mk.injEq] at this
        obtain ⟨rfl, rfl⟩ := this
        exact ⟨some 0, rfl, by simp [Val.issingleton]⟩
      array := by
        intro k v a hv ha
        have := Dict.get?_mem hv
        simp only [binsZ, List.mem_singleton, Prod.mk.injEq] at this
        obtain ⟨rfl, rfl⟩ := this
        have h0 : a = 0 := by
          have : Dict.get? binsZ.dims ['z'] = some (some 0) := rfl
          rw [this] at ha; simpa using ha.symm
        subst h0
        refine ⟨[2], [0, 1], rfl, ⟨rfl, rfl, ?_⟩, rfl⟩
        intro c hc hc'
        simp only [binsZ] at hc
        omega
      rank := rfl
      cover := by
        intro a ha
        have : a = 0 := by simp only [binsZ] at ha; omega
        subst this
        exact ⟨['z'], _, rfl, rfl⟩
      size := rfl }
  dimNodup := by decide
  dimKeys := by decide
  names := by
    intro k v hv
    have := Dict.get?_mem hv
    simp only [binsZ, List.mem_singleton, Prod.mk.injEq] at this
    obtain ⟨rfl, rfl⟩ := this
    exact ⟨by decide, by decide, by simp [Val.issingleton]⟩
  own := by
    intro k k' a hk hk'
    have h1 := Dict.get?_mem hk
    have h2 := Dict.get?_mem hk'
    simp only [binsZ, List.mem_singleton, Prod.mk.injEq] at h1 h2
    rw [h1.1, h2.1]
  pos := by simp [binsZ]
  sorted := by
    intro k s edges hv
    have := Dict.get?_mem hv
    simp only [binsZ, List.mem_singleton, Prod.mk.injEq, Val.arr.injEq] at this
    obtain ⟨rfl, rfl, rfl⟩ := this
    left; simp

theorem squareZ_mapping (p : ℕ → ℝ) (cond : Bool) : Spec.Mapping (remPD p cond) binsZ squareZ where
  nodup := by decide
  known := by decide
  arrays := by
    intro k a hk
    have := Dict.get?_mem hk
    simp only [binsZ, List.mem_singleton, Prod.mk.injEq] at this
    obtain ⟨rfl, _⟩ := this
    cases cond <;> exact ⟨[0, 1, 4], rfl, rfl⟩

/-- C24: conditions are not preserved. -/
theorem C24_claim_fails : ¬ C24_claim := by
  intro h
  obtain ⟨r, hr, _⟩ := h (fun _ => ['3']) (remPD (fun _ => 1 / 3) true) binsZ squareZ (remPD_wf _ _)
    (remPD_readable _ _) rfl (binsZ_bins _) (squareZ_mapping _ _) (by decide)
  obtain ⟨e, he⟩ := C24_scalar_condition_raises (fun _ => ['3']) (remPD (fun _ => 1 / 3) true) binsZ squareZ
    (remPD_wf _ _) (binsZ_bins _) (by decide) (c := ['y']) (s := "y=3".toList) (rest := []) rfl (v := .scalar 3)
    rfl rfl
  rw [hr] at he
  simp at he

/-- Non-vacuity of `C24_remarginalise_partial`: x = 0 falls into the first bin,
x = 1 and x = 2 (with squares 1 and 4) into the second. -/
example (p : ℕ → ℝ) : ∃ r, (remPD p false).remarginalise (fun _ => ['3']) binsZ squareZ = .ok r ∧
    r.values ['z'] = some (.arr [2] [0, 1]) ∧ r.at [0] = p 0 ∧ r.at [1] = p 1 + p 2 := by
  obtain ⟨r, h1, _, h2⟩ := C24_remarginalise_partial (fun _ => ['3']) (remPD p false) binsZ squareZ (remPD_wf _ _)
    (remPD_readable _ _) rfl (binsZ_bins _) (squareZ_mapping _ _) rfl
  obtain ⟨T, t1, t2⟩ := h2.entry
  have lands : ∀ (i n : ℕ) (x : ℚ), ([0, 1, 4] : List ℚ).getD i 0 = x → Spec.InBin [0, 1] x n →
      Spec.Lands (remPD p false) binsZ squareZ [i] [n] := by
    intro i n x hx hb k a s edges data h3 h4 h5
    have g3 := Dict.get?_mem h3
    have g4 := Dict.get?_mem h4
    have g5 := Dict.get?_mem h5
    simp only [binsZ, squareZ, List.mem_singleton, Prod.mk.injEq, Option.some.injEq, Val.arr.injEq] at g3 g4 g5
    obtain ⟨rfl, rfl⟩ := g3
    obtain ⟨_, _, rfl⟩ := g4
    obtain ⟨_, _, rfl⟩ := g5
    refine ⟨n, rfl, ?_⟩
    have : ravelIx (remPD p false).shape [i] = i := by simp [remPD, ravelIx]
    rw [this, hx]
    exact hb
  have hs : ([0, 1] : List ℚ).Pairwise (· ≤ ·) := by simp
  have hmem : ∀ i < 3, [i] ∈ idx (remPD p false).shape := by
    intro i hi
    exact mem_idx.mpr (.cons hi .nil)
  have T0 : T [0] = [0] := ((t1 [0] (hmem 0 (by norm_num))).2.2 [0] (by decide) (lands 0 0 0 rfl
    ⟨by simp, Or.inl ⟨hs, Or.inl rfl, by simp⟩⟩)).symm
  have T1 : T [1] = [1] := ((t1 [1] (hmem 1 (by norm_num))).2.2 [1] (by decide) (lands 1 1 1 rfl
    ⟨by simp, Or.inl ⟨hs, Or.inr ⟨1, rfl, le_refl _⟩, by simp⟩⟩)).symm
  have T2 : T [2] = [1] := ((t1 [2] (hmem 2 (by norm_num))).2.2 [1] (by decide) (lands 2 1 4 rfl
    ⟨by simp, Or.inl ⟨hs, Or.inr ⟨1, rfl, by norm_num⟩, by simp⟩⟩)).symm
  have hix : idx (remPD p false).shape = {[0], [1], [2]} := by
    show idx [3] = _
    decide
  have hat : ∀ i, (remPD p false).at [i] = p i := by intro i; simp [PD.at, remPD, Spec.value]
  have hw : ∀ x, Spec.Writable (remPD p false).pscale x := by
    intro x; simp [Spec.Writable, Spec.Unclamped, remPD]
  refine ⟨r, h1, h2.values _, ?_, ?_⟩
  · rw [t2 [0] (by decide) (hw _), hix]
    have : ({[0], [1], [2]} : Finset (List ℕ)).filter (fun i => T i = [0]) = {[0]} := by
      ext i; simp only [Finset.mem_filter, Finset.mem_insert, Finset.mem_singleton]
      constructor
      · rintro ⟨rfl | rfl | rfl, h⟩
        · rfl
        · rw [T1] at h; simp at h
        · rw [T2] at h; simp at h
      · rintro rfl; exact ⟨by simp, T0⟩
    rw [this, Finset.sum_singleton, hat]
  · rw [t2 [1] (by decide) (hw _), hix]
    have : ({[0], [1], [2]} : Finset (List ℕ)).filter (fun i => T i = [1]) = {[1], [2]} := by
      ext i; simp only [Finset.mem_filter, Finset.mem_insert, Finset.mem_singleton]
      constructor
      · rintro ⟨rfl | rfl | rfl, h⟩
        · rw [T0] at h; simp at h
        · simp
        · simp
      · rintro (rfl | rfl)
        · exact ⟨by simp, T1⟩
        · exact ⟨by simp, T2⟩
    rw [this, Finset.sum_pair (by simp), hat, hat]

/-- p(x|y) with y on the first axis. -/
noncomputable def sharedPD : PD :=
  ⟨"x|y".toList, [(['x'], ['x'])], [(['y'], ['y'])],
   ⟨[(['x'], .arr [1, 3] [0, 1, 2]), (['y'], .arr [2, 1] [5, 7])], [(['x'], some 1), (['y'], some 0)], 2, [3, 2],
    [2, 3], 6, [false, false], false⟩, ⟨[2, 3], fun _ => 1 / 3⟩, .lin 1⟩

/-- C24: an array condition on an axis of the size of the bins is silently merged
with them: the result has one axis for both and no name for the condition. -/
theorem C24_condition_merged : ∃ r, sharedPD.remarginalise (fun _ => []) binsZ [(['z'], .arr [2, 3] [0, 1, 4, 0, 1, 4])]
    = .ok r ∧ r.marg.keys = [['z']] ∧ r.cond = [] ∧ r.keylist = [['z'], ['y']] ∧ r.axis ['z'] = some 0 ∧
      r.axis ['y'] = some 0 := by
  have hwf : sharedPD.WF (fun _ => []) :=
    PD.wf_of_check rfl rfl (by simp [sharedPD, PScale.spec, evalPscale_one])
  have hrd : Spec.Readable sharedPD :=
    ⟨by simp [sharedPD, Spec.Valid], fun i _ => by simp [sharedPD, Spec.Unclamped]⟩
  have hb := binsZ_bins (fun _ => [])
  have hm : Spec.Mapping sharedPD binsZ [(['z'], .arr [2, 3] [0, 1, 4, 0, 1, 4])] :=
    { nodup := by decide
      known := by decide
      arrays := by
        intro k a hk
        have := Dict.get?_mem hk
        simp only [binsZ, List.mem_singleton, Prod.mk.injEq] at this
        obtain ⟨rfl, _⟩ := this
        exact ⟨[0, 1, 4, 0, 1, 4], rfl, rfl⟩ }
  obtain ⟨ix, i1, i2, i3⟩ := remBins_ok hb hm
  obtain ⟨T, t1, t2⟩ := remTargets_ok hb hm i2 i3
  obtain ⟨P, p1, p2⟩ := ravel_rescaled hwf hrd
  obtain ⟨f, hR⟩ : ∃ f, remAccumulate binsZ.shape ((indices sharedPD.shape).map T) P.ravel = .ok ⟨binsZ.shape, f⟩ := by
    have hall : ((indices sharedPD.shape).map T).all (· ∈ idx binsZ.shape) = true := by
      rw [List.all_eq_true]
      intro t ht
      obtain ⟨i, hi, rfl⟩ := List.mem_map.mp ht
      simpa using (t2 i (by rw [idx, List.mem_toFinset]; exact hi)).1
    rw [remAccumulate, if_pos hall]
    exact ⟨_, rfl⟩
  have hres : rescaleArr ⟨binsZ.shape, f⟩ (.flt 1) sharedPD.pscale.spec =
      .ok (Arr.map (fun x => rescaleE x (.lin 1) sharedPD.pscale) ⟨binsZ.shape, f⟩) := by
    simp [rescaleArr, hwf.stable, evalPscale_one, bind, Except.bind, pure, Except.pure]
  have hcond : sharedPD.cond.keys.foldlM (remCond sharedPD) (binsZ.vals, binsZ.dims) =
      .ok ([(['z'], .arr [2] [0, 1]), (['y'], .arr [2, 1] [5, 7])], [(['z'], some 0), (['y'], some 0)]) := rfl
  unfold PD.remarginalise
  rw [show sharedPD.dist.issingleton = false from rfl]
  simp only [Bool.false_eq_true, if_false, remCheck_ok hb hm, i1, p1, hwf.size, t1, hR, hres, hcond, bind, Except.bind]
  have hps : evalPscale sharedPD.pscale.spec = .ok sharedPD.pscale := hwf.stable
  have hname : remName (fun _ => []) sharedPD binsZ = "z=[]y".toList := by decide
  have hstr : strMargcond "z=[]y".toList = .ok ([(['z'], "z=[]y".toList)], []) := rfl
  have hdd : distDims [(['z'], .arr [2] [0, 1]), (['y'], .arr [2, 1] [5, 7])]
      (some [(['z'], some 0), (['y'], some 0)]) = .ok ⟨[(['z'], .arr [2] [0, 1]), (['y'], .arr [2] [5, 7])],
        [(['z'], some 0), (['y'], some 0)], 1, [2, 2], [2], 2, [false, false], false⟩ := by rfl
  simp only [pdInit, hname, hstr, hdd, hps, bind, Except.bind]
  exact ⟨_, rfl, rfl, rfl, rfl, rfl, rfl⟩

end

end Probayes
