/-
Lemmas about the construction of distributions (Model/PD).
-/
import Verif.Model.PD
import Verif.Props.Names
import Verif.Props.PScales

namespace Probayes

theorem Dict.set_of_get? {K V : Type _} [DecidableEq K] {d : Dict K V} {k : K} {v : V}
    (h : Dict.get? d k = some v) : Dict.set d k v = d := by
  induction d with
  | nil => simp [Dict.get?] at h
  | cons kv d ih =>
    obtain ⟨k', v'⟩ := kv
    by_cases hk : k' = k
    · simp [Dict.get?, hk] at h; simp [Dict.set, hk, h]
    · simp [Dict.get?, hk] at h; simp [Dict.set, hk, ih h]

theorem Dict.get?_append {K V : Type _} [DecidableEq K] (d e : Dict K V) (k : K) :
    Dict.get? (d ++ e) k = (Dict.get? d k).or (Dict.get? e k) := by
  induction d with
  | nil => simp [Dict.get?]
  | cons kv d ih =>
    obtain ⟨k', v'⟩ := kv
    by_cases hk : k' = k <;> simp [Dict.get?, hk, ih]

theorem Dict.get?_map {K V W : Type _} [DecidableEq K] (f : K → V → W) (d : Dict K V) (k : K) :
    Dict.get? (d.map fun kv => (kv.1, f kv.1 kv.2)) k = (Dict.get? d k).map (f k) := by
  induction d with
  | nil => simp [Dict.get?]
  | cons kv d ih =>
    obtain ⟨k', v'⟩ := kv
    by_cases hk : k' = k
    · subst hk; simp [Dict.get?]
    · simp [Dict.get?, hk, ih]

theorem Dict.keys_map {K V W : Type _} (f : K → V → W) (d : Dict K V) :
    Dict.keys (d.map fun kv => (kv.1, f kv.1 kv.2)) = Dict.keys d := by
  simp [Dict.keys]

theorem maxDim_foldl (dims : Dict Str (Option ℕ)) :
    ∀ m, m ≤ dims.foldl (fun m kv => match kv.2 with | some d => max m (d + 1) | none => m) m ∧
      ∀ k a, (k, some a) ∈ dims →
        a < dims.foldl (fun m kv => match kv.2 with | some d => max m (d + 1) | none => m) m := by
  induction dims with
  | nil => simp
  | cons kv dims ih =>
    intro m
    obtain ⟨k', v⟩ := kv
    rcases v with _ | b
    · obtain ⟨h1, h2⟩ := ih m
      refine ⟨by simpa using h1, ?_⟩
      intro k a h
      simp at h
      simpa using h2 k a h
    · obtain ⟨h1, h2⟩ := ih (max m (b + 1))
      refine ⟨by simp only [List.foldl_cons]; omega, ?_⟩
      intro k a h
      simp only [List.foldl_cons]
      simp only [List.mem_cons, Prod.mk.injEq, Option.some.injEq] at h
      rcases h with ⟨_, rfl⟩ | h
      · omega
      · exact h2 k a h

theorem lt_maxDim {dims : Dict Str (Option ℕ)} {k : Str} {a : ℕ}
    (h : Dict.get? dims k = some (some a)) : a < maxDim dims :=
  (maxDim_foldl dims 0).2 k a (Dict.get?_mem h)

theorem maxDim_le (dims : Dict Str (Option ℕ)) (n : ℕ)
    (h : ∀ k a, (k, some a) ∈ dims → a < n) : maxDim dims ≤ n := by
  unfold maxDim
  have : ∀ m, m ≤ n →
      dims.foldl (fun m kv => match kv.2 with | some d => max m (d + 1) | none => m) m ≤ n := by
    induction dims with
    | nil => intro m hm; simpa using hm
    | cons kv dims ih =>
      intro m hm
      obtain ⟨k', v⟩ := kv
      simp only [List.foldl_cons]
      apply ih (fun k a hk => h k a (by simp [hk]))
      rcases v with _ | b
      · exact hm
      · have := h k' b (by simp); simp only; omega
  exact this 0 (Nat.zero_le _)

/-- The largest axis is the number of axes: all axes are covered and none is
beyond. -/
theorem maxDim_eq (dims : Dict Str (Option ℕ)) (n : ℕ)
    (h : ∀ k a, (k, some a) ∈ dims → a < n)
    (hc : ∀ a < n, ∃ k, Dict.get? dims k = some (some a)) : maxDim dims = n := by
  refine le_antisymm (maxDim_le dims n h) ?_
  rcases n with _ | n
  · exact Nat.zero_le _
  · obtain ⟨k, hk⟩ := hc n (by omega)
    exact lt_maxDim hk

/-! ### the dims loop with given dimensions -/

/-- What the loop requires of an entry. -/
def EntryOK (dims : Dict Str (Option ℕ)) (kv : Str × Val) : Prop :=
  (kv.2.issingleton = true ∧ (Dict.get? dims kv.1).join = none) ∨
  (kv.2.issingleton = false ∧ ∃ s data a, kv.2 = .arr s data ∧ data.length = s.foldl max 0 ∧
    Dict.get? dims kv.1 = some (some a))

/-- The value after the loop. -/
def placeVal (dims : Dict Str (Option ℕ)) (n : ℕ) (k : Str) (v : Val) : Val :=
  if v.issingleton then v else
  match v, Dict.get? dims k with
  | .arr _ data, some (some a) => .arr (axisShape n a data.length) data
  | v, _ => v

/-- Dimension entries added for scalars. -/
def dimsAfter (dims : Dict Str (Option ℕ)) (kv : Str × Val) : Dict Str (Option ℕ) :=
  if kv.2.issingleton then
    match Dict.get? dims kv.1 with
    | none => Dict.set dims kv.1 none
    | some _ => dims
  else dims

/-- Shape after one entry. -/
def shapeAfter (dims : Dict Str (Option ℕ)) (shape : List (Option ℕ)) (kv : Str × Val) :
    List (Option ℕ) :=
  if kv.2.issingleton then shape else
  match kv.2, Dict.get? dims kv.1 with
  | .arr _ data, some (some a) => shape.set a (some data.length)
  | _, _ => shape

theorem dimsStep_ok (dims : Dict Str (Option ℕ)) (st : AxState) (kv : Str × Val)
    (hk : Dict.get? st.dims kv.1 = Dict.get? dims kv.1) (h : EntryOK dims kv) :
    ∃ st', dimsStep false st kv = .ok st' ∧
      st'.vals = st.vals ++ [(kv.1, placeVal dims st.ndim kv.1 kv.2)] ∧
      st'.dims = dimsAfter st.dims kv ∧ st'.shape = shapeAfter dims st.shape kv ∧
      st'.ndim = st.ndim ∧
      st'.sizes = st.sizes ++ (if kv.2.issingleton then [] else
        match kv.2 with | .arr _ data => [data.length] | _ => []) := by
  obtain ⟨k, v⟩ := kv
  simp only at hk
  rcases h with ⟨hs, hd⟩ | ⟨hs, s, data, a, hv, hl, hd⟩
  · simp only at hs hd
    simp only [dimsStep, hs, if_true, dimsScalar, Bool.false_eq_true, if_false, hk, placeVal,
      dimsAfter, shapeAfter, List.append_nil]
    rcases hg : Dict.get? dims k with _ | _ | b
    · exact ⟨_, rfl, by simp, by simp, rfl, rfl, rfl⟩
    · exact ⟨_, rfl, by simp, by simp, rfl, rfl, rfl⟩
    · rw [hg] at hd; simp at hd
  · simp only at hs hv hd
    subst hv
    refine ⟨_, by simp only [dimsStep, hs, dimsArray, hl, hk, hd]; simp; rfl, ?_⟩
    simp [dimsPlace, placeVal, dimsAfter, shapeAfter, hs, hd]

theorem dimsStep_error (dims : Dict Str (Option ℕ)) (st : AxState) (kv : Str × Val)
    (hk : Dict.get? st.dims kv.1 = Dict.get? dims kv.1) (h : ¬ EntryOK dims kv) :
    ∃ e, dimsStep false st kv = .error e := by
  obtain ⟨k, v⟩ := kv
  simp only at hk
  unfold EntryOK at h
  simp only [not_or] at h
  obtain ⟨h1, h2⟩ := h
  rcases hs : v.issingleton with _ | _
  · simp only [dimsStep, hs, Bool.false_eq_true, if_false, dimsArray]
    rcases v with x | x | x | _ | ⟨s, data⟩ | _
    all_goals try exact ⟨_, rfl⟩
    by_cases hl : data.length = s.foldl max 0
    · rcases hg : Dict.get? dims k with _ | _ | b
      · exact ⟨.assertion, by simp [hl, hk, hg]⟩
      · exact ⟨.type, by simp [hl, hk, hg]⟩
      · exact absurd ⟨hs, s, data, b, rfl, hl, hg⟩ h2
    · exact ⟨.assertion, by simp [hl]⟩
  · simp only [dimsStep, hs, if_true, dimsScalar, Bool.false_eq_true, if_false, hk]
    rcases hg : Dict.get? dims k with _ | _ | b
    · exact absurd ⟨hs, by simp [hg]⟩ h1
    · exact absurd ⟨hs, by simp [hg]⟩ h1
    · exact ⟨_, rfl⟩

theorem get?_dimsAfter_ne (dims : Dict Str (Option ℕ)) (kv : Str × Val) (k : Str)
    (h : k ≠ kv.1) : Dict.get? (dimsAfter dims kv) k = Dict.get? dims k := by
  unfold dimsAfter
  split
  · split
    · rw [Dict.get?_set, if_neg (Ne.symm h)]
    · rfl
  · rfl

/-- The loop succeeds exactly when every entry is acceptable, and its effect. -/
theorem dimsLoop_ok (dims : Dict Str (Option ℕ)) (l : Dict Str Val) :
    ∀ st : AxState, (Dict.keys l).Nodup →
      (∀ k ∈ Dict.keys l, Dict.get? st.dims k = Dict.get? dims k) →
      (∀ kv ∈ l, EntryOK dims kv) →
      ∃ st', l.foldlM (dimsStep false) st = .ok st' ∧
        st'.vals = st.vals ++ l.map (fun kv => (kv.1, placeVal dims st.ndim kv.1 kv.2)) ∧
        st'.dims = l.foldl dimsAfter st.dims ∧
        st'.shape = l.foldl (shapeAfter dims) st.shape ∧ st'.ndim = st.ndim := by
  induction l with
  | nil => intro st _ _ _; exact ⟨st, rfl, by simp, rfl, rfl, rfl⟩
  | cons kv l ih =>
    intro st hn hd he
    simp only [Dict.keys_cons, List.nodup_cons] at hn
    obtain ⟨st1, h1, h2, h3, h4, h5, _⟩ := dimsStep_ok dims st kv (hd _ (by simp)) (he kv (by simp))
    obtain ⟨st2, g1, g2, g3, g4, g5⟩ := ih st1 hn.2 (by
      intro k hk
      rw [h3, get?_dimsAfter_ne _ _ _ (by rintro rfl; exact hn.1 hk)]
      exact hd k (by simp [hk])) (fun kv' h' => he kv' (by simp [h']))
    refine ⟨st2, by rw [List.foldlM_cons, h1]; exact g1, ?_, ?_, ?_, ?_⟩
    · rw [g2, h2, h5]; simp
    · rw [g3, h3]; rfl
    · rw [g4, h4]; rfl
    · rw [g5, h5]

theorem dimsLoop_inv (dims : Dict Str (Option ℕ)) (l : Dict Str Val) :
    ∀ st st' : AxState, (Dict.keys l).Nodup →
      (∀ k ∈ Dict.keys l, Dict.get? st.dims k = Dict.get? dims k) →
      l.foldlM (dimsStep false) st = .ok st' → ∀ kv ∈ l, EntryOK dims kv := by
  induction l with
  | nil => intro st st' _ _ _ kv h; simp at h
  | cons kv l ih =>
    intro st st' hn hd hok
    simp only [Dict.keys_cons, List.nodup_cons] at hn
    by_cases he : EntryOK dims kv
    · obtain ⟨st1, h1, h2, h3, h4, h5, _⟩ := dimsStep_ok dims st kv (hd _ (by simp)) he
      rw [List.foldlM_cons, h1] at hok
      have := ih st1 st' hn.2 (by
        intro k hk
        rw [h3, get?_dimsAfter_ne _ _ _ (by rintro rfl; exact hn.1 hk)]
        exact hd k (by simp [hk])) hok
      intro kv' h'
      rcases List.mem_cons.mp h' with rfl | h'
      · exact he
      · exact this kv' h'
    · obtain ⟨e, h1⟩ := dimsStep_error dims st kv (hd _ (by simp)) he
      rw [List.foldlM_cons, h1] at hok
      simp [bind, Except.bind] at hok

/-- Entries of the final dimension dictionary. -/
theorem get?_foldl_dimsAfter (l : Dict Str Val) :
    ∀ dims : Dict Str (Option ℕ), (Dict.keys l).Nodup → ∀ k,
      Dict.get? (l.foldl dimsAfter dims) k = (Dict.get? dims k).or
        (match Dict.get? l k with
         | some v => if v.issingleton then some none else none
         | none => none) := by
  induction l with
  | nil => intro dims _ k; simp [Dict.get?]
  | cons kv l ih =>
    intro dims hn k
    obtain ⟨k', v⟩ := kv
    simp only [Dict.keys_cons, List.nodup_cons] at hn
    rw [List.foldl_cons, ih _ hn.2]
    by_cases hk : k' = k
    · subst hk
      have hnone : Dict.get? l k' = none := Dict.get?_eq_none.mpr hn.1
      simp only [hnone, Option.or_none, Dict.get?, if_true, dimsAfter]
      rcases hs : v.issingleton with _ | _
      · simp
      · rcases hg : Dict.get? dims k' with _ | b
        · simp [Dict.get?_set]
        · simp [hg]
    · rw [get?_dimsAfter_ne _ _ _ (Ne.symm hk)]
      simp [Dict.get?, hk]

theorem keys_foldl_dimsAfter (l : Dict Str Val) :
    ∀ dims : Dict Str (Option ℕ), ∀ k ∈ Dict.keys (l.foldl dimsAfter dims),
      k ∈ Dict.keys dims ∨ k ∈ Dict.keys l := by
  induction l with
  | nil => intro dims k h; exact Or.inl h
  | cons kv l ih =>
    intro dims k h
    rcases ih _ k h with h | h
    · unfold dimsAfter at h
      split at h
      · split at h
        · rw [Dict.keys_set] at h
          split at h
          · exact Or.inl h
          · simp at h; rcases h with h | h
            · exact Or.inl h
            · exact Or.inr (by simp [h])
        · exact Or.inl h
      · exact Or.inl h
    · exact Or.inr (by simp [h])

/-- An array entry on a given axis. -/
def onAxis (dims : Dict Str (Option ℕ)) (a : ℕ) (kv : Str × Val) : Prop :=
  kv.2.issingleton = false ∧ Dict.get? dims kv.1 = some (some a)

open Classical in
/-- The shape after the loop when the sizes of keys on each axis are those of `S`. -/
theorem getElem?_foldl_shapeAfter (dims : Dict Str (Option ℕ)) (l : Dict Str Val) (S : List ℕ)
    (hS : ∀ kv ∈ l, kv.2.issingleton = false → ∀ s data a, kv.2 = .arr s data →
      Dict.get? dims kv.1 = some (some a) → S[a]? = some data.length)
    (hA : ∀ kv ∈ l, EntryOK dims kv) :
    ∀ shape : List (Option ℕ), shape.length = S.length → ∀ a,
      (l.foldl (shapeAfter dims) shape)[a]? =
        if (∃ kv ∈ l, onAxis dims a kv) then (S[a]?).map some else shape[a]? := by
  induction l with
  | nil => intro shape _ a; simp
  | cons kv l ih =>
    intro shape hlen a
    have hlen' : (shapeAfter dims shape kv).length = S.length := by
      unfold shapeAfter
      split
      · exact hlen
      · split
        · rw [List.length_set]; exact hlen
        · exact hlen
    rw [List.foldl_cons, ih (fun kv' h' => hS kv' (by simp [h'])) (fun kv' h' => hA kv' (by simp [h']))
      _ hlen' a]
    by_cases h1 : ∃ kv' ∈ l, onAxis dims a kv'
    · have h2 : ∃ kv' ∈ kv :: l, onAxis dims a kv' := by
        obtain ⟨kv', h, h'⟩ := h1; exact ⟨kv', by simp [h], h'⟩
      rw [if_pos h1, if_pos h2]
    · rw [if_neg h1]
      by_cases h2 : onAxis dims a kv
      · have h3 : ∃ kv' ∈ kv :: l, onAxis dims a kv' := ⟨kv, by simp, h2⟩
        rw [if_pos h3]
        obtain ⟨hs, hd⟩ := h2
        rcases hA kv (by simp) with ⟨hc, _⟩ | ⟨_, s, data, b, hv, _, hb⟩
        · rw [hs] at hc; simp at hc
        · have : b = a := by rw [hd] at hb; simpa using hb.symm
          subst this
          have hSa := hS kv (by simp) hs s data b hv hd
          have hlt : b < S.length := by
            by_contra hc
            rw [List.getElem?_eq_none (by omega)] at hSa; simp at hSa
          obtain ⟨k, v⟩ := kv
          simp only at hv hs hd
          subst hv
          simp only [shapeAfter, hs, hd, Bool.false_eq_true, if_false]
          rw [List.getElem?_set_self (by omega), hSa]; rfl
      · have h3 : ¬ ∃ kv' ∈ kv :: l, onAxis dims a kv' := by
          rintro ⟨kv', h, h'⟩
          rcases List.mem_cons.mp h with rfl | h
          · exact h2 h'
          · exact h1 ⟨kv', h, h'⟩
        rw [if_neg h3]
        unfold shapeAfter
        split
        · rfl
        · rename_i hs
          split
          · rename_i s data b hv hb
            have : b ≠ a := by
              rintro rfl
              exact h2 ⟨by simpa using hs, hb⟩
            rw [List.getElem?_set_ne this]
          · rfl

theorem length_foldl_shapeAfter (dims : Dict Str (Option ℕ)) (l : Dict Str Val) :
    ∀ shape : List (Option ℕ), (l.foldl (shapeAfter dims) shape).length = shape.length := by
  induction l with
  | nil => intro shape; rfl
  | cons kv l ih =>
    intro shape
    rw [List.foldl_cons, ih]
    unfold shapeAfter
    split
    · rfl
    · split
      · rw [List.length_set]
      · rfl

/-- A filled axis was filled by some key on it. -/
theorem foldl_shapeAfter_inv (dims : Dict Str (Option ℕ)) (l : Dict Str Val) :
    ∀ (shape : List (Option ℕ)) (a x : ℕ),
      (l.foldl (shapeAfter dims) shape)[a]? = some (some x) →
      shape[a]? = some (some x) ∨ ∃ kv ∈ l, ∃ s data, kv.2.issingleton = false ∧
        kv.2 = .arr s data ∧ Dict.get? dims kv.1 = some (some a) ∧ x = data.length := by
  induction l with
  | nil => intro shape a x h; exact Or.inl h
  | cons kv l ih =>
    intro shape a x h
    rcases ih _ a x h with h | ⟨kv', h1, h2⟩
    · unfold shapeAfter at h
      split at h
      · exact Or.inl h
      · rename_i hs
        split at h
        · rename_i s data b hv hb
          by_cases hab : b = a
          · subst hab
            by_cases hlt : b < shape.length
            · rw [List.getElem?_set_self hlt] at h
              simp only [Option.some.injEq] at h
              exact Or.inr ⟨kv, by simp, s, data, by simpa using hs, hv, hb, h.symm⟩
            · rw [List.getElem?_eq_none (by rw [List.length_set]; omega)] at h; simp at h
          · rw [List.getElem?_set_ne hab] at h; exact Or.inl h
        · exact Or.inl h
    · exact Or.inr ⟨kv', by simp [h1], h2⟩

theorem mapM_id_eq_some {l : List (Option ℕ)} {s : List ℕ} (h : l = s.map some) :
    l.mapM id = some s := by
  subst h
  induction s with
  | nil => rfl
  | cons x s ih => simp [List.mapM_cons, ih]

theorem mapM_id_inv {l : List (Option ℕ)} {s : List ℕ} (h : l.mapM id = some s) :
    l = s.map some := by
  induction l generalizing s with
  | nil => simp at h; subst h; rfl
  | cons x l ih =>
    rcases x with _ | x
    · simp [List.mapM_cons] at h
    · simp only [List.mapM_cons, id, Option.bind_eq_bind, Option.bind_some] at h
      rcases hl : l.mapM id with _ | t
      · rw [hl] at h; simp at h
      · rw [hl] at h; simp at h; subst h; simp [ih hl]

/-! ### Distribution -/

/-- The given values with `{None}` replaced. -/
def fixVals (l : Dict Str Val) : Dict Str Val := l.map fun kv => (kv.1, kv.2.fixNone)

theorem keys_fixVals (l : Dict Str Val) : Dict.keys (fixVals l) = Dict.keys l := by
  simp [fixVals, Dict.keys]

/-- Everything needed for a distribution with given dimensions to be accepted
with shape `S`. -/
structure DistReady (l : Dict Str Val) (dims : Dict Str (Option ℕ)) (S : List ℕ) : Prop where
  ne : l ≠ []
  nodup : (Dict.keys l).Nodup
  allowed : ∀ k ∈ Dict.keys l, k ∉ disallowed
  entries : ∀ kv ∈ fixVals l, EntryOK dims kv
  sizes : ∀ kv ∈ fixVals l, kv.2.issingleton = false → ∀ s data a, kv.2 = .arr s data →
      Dict.get? dims kv.1 = some (some a) → S[a]? = some data.length
  len : S.length = maxDim dims
  cover : ∀ a < maxDim dims, ∃ kv ∈ fixVals l, onAxis dims a kv

theorem distDims_ok {l : Dict Str Val} {dims : Dict Str (Option ℕ)} {S : List ℕ}
    (h : DistReady l dims S) :
    ∃ r, distDims l (some dims) = .ok r ∧
      r.vals = (fixVals l).map (fun kv => (kv.1, placeVal dims (maxDim dims) kv.1 kv.2)) ∧
      r.dims = (fixVals l).foldl dimsAfter dims ∧ r.ndim = maxDim dims ∧ r.shape = S ∧
      r.size = S.prod ∧ r.aresingleton = (fixVals l).map (fun kv => kv.2.issingleton) ∧
      r.issingleton = (fixVals l).all (fun kv => kv.2.issingleton) := by
  obtain ⟨st, h1, h2, h3, h4, h5⟩ := dimsLoop_ok dims (fixVals l)
    ⟨[], dims, List.replicate (maxDim dims) none, maxDim dims, 0, []⟩
    (by rw [keys_fixVals]; exact h.nodup) (fun _ _ => rfl) h.entries
  have hshape : st.shape = S.map some := by
    rw [h4]
    apply List.ext_getElem?
    intro a
    rw [getElem?_foldl_shapeAfter dims (fixVals l) S h.sizes h.entries _ (by simp [h.len]) a]
    by_cases ha : a < maxDim dims
    · rw [if_pos (h.cover a ha)]; simp
    · have hS : S[a]? = none := List.getElem?_eq_none (by rw [h.len]; omega)
      have hR : (List.replicate (maxDim dims) (none : Option ℕ))[a]? = none :=
        List.getElem?_eq_none (by simp; omega)
      simp only [List.getElem?_map, hS, hR]
      split <;> rfl
  have hne : l.isEmpty = false := by simpa using h.ne
  have hal : (Dict.keys l).any (· ∈ disallowed) = false := by
    simp only [List.any_eq_false, decide_eq_true_eq]
    exact h.allowed
  unfold distDims
  simp only [hne, hal, Option.isNone_some, Option.getD_some, Bool.false_eq_true, if_false]
  have h1' : List.foldlM (dimsStep false) ⟨[], dims, List.replicate (maxDim dims) none, maxDim dims, 0, []⟩
      (l.map fun kv => (kv.1, kv.2.fixNone)) = .ok st := h1
  simp only [h1', bind, Except.bind, mapM_id_eq_some hshape, pure, Except.pure]
  refine ⟨_, rfl, ?_, ?_, ?_, rfl, rfl, rfl, rfl⟩
  · simpa using h2
  · exact h3
  · exact h5

/-- Conversely, an accepted distribution had acceptable entries. -/
theorem distDims_inv {l : Dict Str Val} {dims : Dict Str (Option ℕ)} {r : Dist}
    (hn : (Dict.keys l).Nodup) (hne : l ≠ []) (h : distDims l (some dims) = .ok r) :
    (∀ k ∈ Dict.keys l, k ∉ disallowed) ∧ (∀ kv ∈ fixVals l, EntryOK dims kv) ∧
      r.vals = (fixVals l).map (fun kv => (kv.1, placeVal dims (maxDim dims) kv.1 kv.2)) ∧
      r.dims = (fixVals l).foldl dimsAfter dims ∧ r.ndim = maxDim dims ∧
      r.shape.map some = (fixVals l).foldl (shapeAfter dims) (List.replicate (maxDim dims) none) ∧
      r.size = r.shape.prod ∧ r.aresingleton = (fixVals l).map (fun kv => kv.2.issingleton) ∧
      r.issingleton = (fixVals l).all (fun kv => kv.2.issingleton) := by
  have hne' : l.isEmpty = false := by simpa using hne
  unfold distDims at h
  simp only [hne', Option.isNone_some, Option.getD_some, Bool.false_eq_true, if_false] at h
  by_cases hal : (Dict.keys l).any (· ∈ disallowed) = true
  · rw [if_pos hal] at h; simp at h
  rw [if_neg hal] at h
  have hal' : ∀ k ∈ Dict.keys l, k ∉ disallowed := by
    simpa [List.any_eq_true] using hal
  rcases hf : List.foldlM (dimsStep false) ⟨[], dims, List.replicate (maxDim dims) none, maxDim dims, 0, []⟩
      (l.map fun kv => (kv.1, kv.2.fixNone)) with e | st
  · simp only [hf, bind, Except.bind] at h; simp at h
  have hent := dimsLoop_inv dims (fixVals l) _ st (by rw [keys_fixVals]; exact hn) (fun _ _ => rfl) hf
  obtain ⟨st', h1, h2, h3, h4, h5⟩ := dimsLoop_ok dims (fixVals l)
    ⟨[], dims, List.replicate (maxDim dims) none, maxDim dims, 0, []⟩
    (by rw [keys_fixVals]; exact hn) (fun _ _ => rfl) hent
  have : st' = st := by
    have h1' : List.foldlM (dimsStep false) ⟨[], dims, List.replicate (maxDim dims) none, maxDim dims, 0, []⟩
      (l.map fun kv => (kv.1, kv.2.fixNone)) = .ok st' := h1
    rw [hf] at h1'; simpa using h1'.symm
  subst this
  simp only [hf, bind, Except.bind] at h
  rcases hm : st'.shape.mapM id with _ | S
  · simp only [hm] at h; simp at h
  · simp only [hm, pure, Except.pure, Except.ok.injEq] at h
    subst h
    refine ⟨hal', hent, by simpa using h2, h3, h5, ?_, rfl, rfl, rfl⟩
    rw [← h4]; exact (mapM_id_inv hm).symm

end Probayes
