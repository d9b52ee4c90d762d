/-
Lemmas for marginalisation.
-/
import Verif.Model.PDMarg
import Verif.Lemmas.PDBuild

namespace Probayes

/-! ### dictionaries -/

theorem Dict.keys_filter {K V : Type _} (p : K → Bool) (d : Dict K V) :
    Dict.keys (d.filter fun kv => p kv.1) = (Dict.keys d).filter p := by
  simp only [Dict.keys, List.filter_map]; rfl

theorem Dict.get?_filter {K V : Type _} [DecidableEq K] (p : K → Bool) (d : Dict K V) (k : K) :
    Dict.get? (d.filter fun kv => p kv.1) k = if p k then Dict.get? d k else none := by
  induction d with
  | nil => simp [Dict.get?]
  | cons kv d ih =>
    obtain ⟨k', v⟩ := kv
    by_cases hk : k' = k
    · subst hk
      by_cases hp : p k' <;> simp [Dict.get?, List.filter_cons, hp, ih]
    · by_cases hp : p k' <;> simp [Dict.get?, List.filter_cons, hp, ih, hk]

theorem Dict.erase_eq_filter {K V : Type _} [DecidableEq K] (d : Dict K V) (k : K)
    (hn : (Dict.keys d).Nodup) : Dict.erase d k = d.filter fun kv => kv.1 ≠ k := by
  induction d with
  | nil => rfl
  | cons kv d ih =>
    obtain ⟨k', v⟩ := kv
    simp only [Dict.keys_cons, List.nodup_cons] at hn
    by_cases hk : k' = k
    · subst hk
      simp only [Dict.erase, if_true]
      rw [List.filter_cons_of_neg (by simp), List.filter_eq_self.mpr]
      rintro ⟨a, b⟩ hab
      simp only [ne_eq, decide_eq_true_eq]
      rintro rfl
      exact hn.1 (List.mem_map.mpr ⟨_, hab, rfl⟩)
    · simp [Dict.erase, hk, List.filter_cons, ih hn.2]

/-! ### the kept axes -/

theorem exists_kept {α : Type _} (p : ℕ → Bool) (l : List α) (b : ℕ) (h : b < (dropAxes p l).length) :
    ∃ a < l.length, p a = false ∧ a - dropped p a = b := by
  induction l generalizing p b with
  | nil => simp at h
  | cons x l ih =>
    by_cases h0 : p 0
    · simp only [dropAxes, h0, if_true] at h
      obtain ⟨a, h1, h2, h3⟩ := ih _ b h
      refine ⟨a + 1, by simpa using h1, h2, ?_⟩
      rw [dropped_succ, if_pos h0]; omega
    · simp only [dropAxes, h0, Bool.false_eq_true, if_false, List.length_cons] at h
      rcases b with _ | b
      · exact ⟨0, by simp, by simpa using h0, by simp⟩
      · obtain ⟨a, h1, h2, h3⟩ := ih (fun n => p (n + 1)) b (by omega)
        refine ⟨a + 1, by simpa using h1, h2, ?_⟩
        rw [dropped_succ]
        have := dropped_le (fun m => p (m + 1)) a
        simp only [h0, Bool.false_eq_true, if_false]; omega

/-- Kept axes keep their order. -/
theorem kept_lt {p : ℕ → Bool} {a b : ℕ} (ha : p a = false) (h : a < b) :
    a - dropped p a < b - dropped p b := by
  have h1 : dropped p b ≤ dropped p a + (b - a - 1) := by
    unfold dropped
    obtain ⟨c, rfl⟩ : ∃ c, b = a + 1 + c := ⟨b - a - 1, by omega⟩
    rw [List.range_add, List.countP_append, List.range_succ, List.countP_append]
    have h2 := List.countP_le_length (p := p) (l := List.map (fun x => a + 1 + x) (List.range c))
    simp only [List.length_map, List.length_range] at h2
    simp only [List.countP_cons, ha, List.countP_nil, Bool.false_eq_true, if_false]
    omega
  have := dropped_le p a
  omega

theorem kept_lt_iff {p : ℕ → Bool} {a b : ℕ} (ha : p a = false) (hb : p b = false) :
    a - dropped p a < b - dropped p b ↔ a < b := by
  constructor
  · intro h
    by_contra hc
    rcases Nat.lt_or_ge b a with hba | hba
    · have := kept_lt hb hba; omega
    · have : a = b := by omega
      subst this; omega
  · exact kept_lt ha

theorem exists_dropAxes {p : ℕ → Bool} {s j : List ℕ} (hs : ∀ n ∈ s, 0 < n)
    (hj : j ∈ idx (dropAxes p s)) : ∃ i ∈ idx s, dropAxes p i = j := by
  simp only [mem_idx] at hj ⊢
  induction s generalizing p j with
  | nil => simp at hj; exact ⟨[], by simp, by simp [hj]⟩
  | cons n s ih =>
    have hs' : ∀ n ∈ s, 0 < n := fun m hm => hs m (by simp [hm])
    by_cases h0 : p 0
    · simp only [dropAxes, h0, if_true] at hj
      obtain ⟨i, h1, h2⟩ := ih hs' hj
      exact ⟨0 :: i, List.Forall₂.cons (hs n (by simp)) h1, by simp [dropAxes, h0, h2]⟩
    · simp only [dropAxes, h0, Bool.false_eq_true, if_false] at hj
      cases hj with
      | cons h1 h2 =>
        obtain ⟨i, h3, h4⟩ := ih hs' h2
        exact ⟨_ :: i, List.Forall₂.cons h1 h3, by simp [dropAxes, h0, h4]⟩

theorem mem_of_mem_dropAxes {α : Type _} {p : ℕ → Bool} {l : List α} {x : α}
    (h : x ∈ dropAxes p l) : x ∈ l := by
  induction l generalizing p with
  | nil => simp at h
  | cons y l ih =>
    by_cases h0 : p 0
    · simp only [dropAxes, h0, if_true] at h; simp [ih h]
    · simp only [dropAxes, h0, Bool.false_eq_true, if_false, List.mem_cons] at h
      rcases h with h | h
      · simp [h]
      · simp [ih h]

/-! ### keys preceding a key -/

/-- The selected keys before `k` in key order. -/
def preceding (keys : List Str) (k : Str) : Dict Str Val → List Str
  | [] => []
  | (k', _) :: l => if k' = k then [] else
      if k' ∈ keys then k' :: preceding keys k l else preceding keys k l

theorem mem_preceding {keys : List Str} {k : Str} {R : Str → Str → Prop} :
    ∀ {l : Dict Str Val}, (Dict.keys l).Nodup → (Dict.keys l).Pairwise R → k ∈ Dict.keys l →
      (∀ k' ∈ preceding keys k l, k' ∈ keys ∧ k' ∈ Dict.keys l ∧ k' ≠ k ∧ R k' k) ∧
      (∀ k' ∈ keys, k' ∈ Dict.keys l → k' ≠ k → k' ∉ preceding keys k l → R k k') ∧
      (preceding keys k l).Nodup := by
  intro l
  induction l with
  | nil => intro _ _ h; simp at h
  | cons kv l ih =>
    obtain ⟨k', v⟩ := kv
    intro hn hp hk
    simp only [Dict.keys_cons, List.nodup_cons, List.pairwise_cons, List.mem_cons] at hn hp hk
    by_cases h1 : k' = k
    · subst h1
      refine ⟨by simp [preceding], ?_, by simp [preceding]⟩
      intro k2 h2 h3 h4 _
      simp only [Dict.keys_cons, List.mem_cons] at h3
      exact hp.1 k2 (h3.resolve_left h4)
    · have hk' := hk.resolve_left (Ne.symm h1)
      obtain ⟨i1, i2, i3⟩ := ih hn.2 hp.2 hk'
      by_cases h2 : k' ∈ keys
      · simp only [preceding, h1, h2, if_false, if_true]
        refine ⟨?_, ?_, ?_⟩
        · intro k2 h3
          rcases List.mem_cons.mp h3 with rfl | h3
          · exact ⟨h2, by simp, h1, hp.1 _ hk'⟩
          · obtain ⟨a, b, c, e⟩ := i1 k2 h3
            exact ⟨a, by simp [b], c, e⟩
        · intro k2 h3 h4 h5 h6
          simp only [Dict.keys_cons, List.mem_cons, not_or] at h4 h6
          exact i2 k2 h3 (h4.resolve_left h6.1) h5 h6.2
        · rw [List.nodup_cons]
          refine ⟨fun hc => hn.1 (i1 _ hc).2.1, i3⟩
      · simp only [preceding, h1, h2, if_false]
        refine ⟨?_, ?_, i3⟩
        · intro k2 h3
          obtain ⟨a, b, c, e⟩ := i1 k2 h3
          exact ⟨a, by simp [b], c, e⟩
        · intro k2 h3 h4 h5 h6
          simp only [Dict.keys_cons, List.mem_cons] at h4
          rcases h4 with rfl | h4
          · exact absurd h3 h2
          · exact i2 k2 h3 h4 h5 h6

/-! ### the loop -/

/-- Dimensions collected for the kept arrays. -/
def margDims (d : PD) (keys : List Str) : Dict Str Val → ℕ → Dict Str (Option ℕ)
  | [], _ => []
  | (k, v) :: l, δ =>
      if k ∈ keys then margDims d keys l (δ + 1)
      else if v.issingleton then margDims d keys l δ
      else (k, some ((d.axis k).getD 0 - δ)) :: margDims d keys l δ

/-- Axes of the removed arrays. -/
def margAxes (d : PD) (keys : List Str) (l : Dict Str Val) : List ℕ :=
  l.filterMap fun kv => if kv.1 ∈ keys then d.axis kv.1 else none

theorem margLoop_ok (d : PD) (keys : List Str) (l : Dict Str Val) :
    ∀ st : MargState, (Dict.keys l).Nodup → (Dict.keys st.marg).Nodup →
      (∀ k ∈ Dict.keys l, k ∉ Dict.keys st.dims) →
      (∀ kv ∈ l, kv.1 ∈ keys → kv.2.issingleton = false ∧ kv.1 ∈ Dict.keys st.marg ∧
        ∃ a, d.axis kv.1 = some a) →
      (∀ kv ∈ l, kv.1 ∉ keys → kv.2.issingleton = false →
        ∃ a, d.axis kv.1 = some a ∧ st.delta + (preceding keys kv.1 l).length ≤ a) →
      ∃ st', l.foldlM (margStep d keys) st = .ok st' ∧
        st'.marg = st.marg.filter (fun kv => !(decide (kv.1 ∈ keys) && decide (kv.1 ∈ Dict.keys l))) ∧
        st'.vals = st.vals ++ l.filter (fun kv => kv.1 ∉ keys) ∧
        st'.dims = st.dims ++ margDims d keys l st.delta ∧
        st'.axes = st.axes ++ margAxes d keys l := by
  induction l with
  | nil =>
    intro st _ _ _ _ _
    exact ⟨st, rfl, by simp, by simp, by simp [margDims], by simp [margAxes]⟩
  | cons kv l ih =>
    obtain ⟨k, v⟩ := kv
    intro st hn hm hd hrem hkeep
    simp only [Dict.keys_cons, List.nodup_cons] at hn
    have hkeep' : ∀ δ', δ' ≤ st.delta + (if k ∈ keys then 1 else 0) → ∀ kv ∈ l, kv.1 ∉ keys →
        kv.2.issingleton = false →
        ∃ a, d.axis kv.1 = some a ∧ δ' + (preceding keys kv.1 l).length ≤ a := by
      intro δ' hδ kv hkv h1 h2
      obtain ⟨a, ha, hle⟩ := hkeep kv (by simp [hkv]) h1 h2
      have hne : k ≠ kv.1 := by
        rintro rfl; exact hn.1 (List.mem_map.mpr ⟨kv, hkv, rfl⟩)
      refine ⟨a, ha, ?_⟩
      simp only [preceding, hne, if_false] at hle
      split at hle
      · rename_i hk; rw [if_pos hk] at hδ; simp only [List.length_cons] at hle; omega
      · rename_i hk; rw [if_neg hk] at hδ; omega
    by_cases hk : k ∈ keys
    · obtain ⟨hs, hmk, a, ha⟩ := hrem (k, v) (by simp) hk
      simp only at hs hmk ha
      have hstep : margStep d keys st (k, v) = .ok ⟨Dict.erase st.marg k, st.vals, st.dims, st.delta + 1, st.axes ++ [a]⟩ := by
        have hg : Dict.get? d.dims k = some (some a) := join_eq_some.mp ha
        simp [margStep, hk, hs, dimOf, hg, hmk, bind, Except.bind, pure, Except.pure]
      have herase : Dict.erase st.marg k = st.marg.filter (fun kv => kv.1 ≠ k) :=
        Dict.erase_eq_filter _ _ hm
      have hkeys : Dict.keys (Dict.erase st.marg k) = (Dict.keys st.marg).filter (· ≠ k) := by
        rw [herase]; exact Dict.keys_filter (fun x => decide (x ≠ k)) st.marg
      obtain ⟨st', g1, g2, g3, g4, g5⟩ := ih
        ⟨Dict.erase st.marg k, st.vals, st.dims, st.delta + 1, st.axes ++ [a]⟩ hn.2 (by
          show (Dict.keys (Dict.erase st.marg k)).Nodup
          rw [hkeys]; exact hm.filter _)
        (by intro k' h'; exact hd k' (by simp [h']))
        (by
          intro kv hkv h1
          obtain ⟨e1, e2, e3⟩ := hrem kv (by simp [hkv]) h1
          refine ⟨e1, ?_, e3⟩
          show kv.1 ∈ Dict.keys (Dict.erase st.marg k)
          rw [hkeys, List.mem_filter]
          refine ⟨e2, ?_⟩
          simp only [ne_eq, decide_eq_true_eq]
          rintro rfl
          exact hn.1 (List.mem_map.mpr ⟨kv, hkv, rfl⟩))
        (hkeep' (st.delta + 1) (by simp [hk]))
      refine ⟨st', by rw [List.foldlM_cons, hstep]; exact g1, ?_, ?_, ?_, ?_⟩
      · rw [g2]
        show (Dict.erase st.marg k).filter _ = _
        rw [herase, List.filter_filter]
        apply List.filter_congr
        rintro ⟨k', t⟩ _
        by_cases hkk : k' = k
        · subst hkk; simp [hk]
        · simp [hkk]
      · rw [g3]; simp [hk, List.filter_cons]
      · rw [g4]; simp [margDims, hk]
      · rw [g5]; simp [margAxes, hk, ha]
    · by_cases hs : v.issingleton = true
      · have hstep : margStep d keys st (k, v) = .ok { st with vals := st.vals ++ [(k, v)] } := by
          simp [margStep, hk, hs]
        obtain ⟨st', g1, g2, g3, g4, g5⟩ := ih { st with vals := st.vals ++ [(k, v)] } hn.2 hm
          (fun k' h' => hd k' (by simp [h'])) (fun kv hkv => hrem kv (by simp [hkv]))
          (hkeep' st.delta (by simp [hk]))
        refine ⟨st', by rw [List.foldlM_cons, hstep]; exact g1, ?_, ?_, ?_, ?_⟩
        · rw [g2]
          apply List.filter_congr
          rintro ⟨k', t⟩ _
          by_cases hkk : k' = k
          · subst hkk; simp [hk]
          · simp [hkk]
        · rw [g3]; simp [hk, List.filter_cons]
        · rw [g4]; simp [margDims, hk, hs]
        · rw [g5]; simp [margAxes, hk]
      · have hs' : v.issingleton = false := by simpa using hs
        obtain ⟨a, ha, hle⟩ := hkeep (k, v) (by simp) hk hs'
        simp only [preceding, if_true, List.length_nil, Nat.add_zero] at ha hle
        have hg : Dict.get? d.dims k = some (some a) := join_eq_some.mp ha
        have hnd : k ∉ Dict.keys st.dims := hd k (by simp)
        have hstep : margStep d keys st (k, v) = .ok ⟨st.marg,
            st.vals ++ [(k, v)], st.dims ++ [(k, some (a - st.delta))], st.delta, st.axes⟩ := by
          simp [margStep, hk, hs', dimOf, hg, shiftDim, hle, bind, Except.bind, pure, Except.pure,
            Dict.set_of_notMem hnd]
        obtain ⟨st', g1, g2, g3, g4, g5⟩ := ih ⟨st.marg,
            st.vals ++ [(k, v)], st.dims ++ [(k, some (a - st.delta))], st.delta, st.axes⟩ hn.2 hm
          (by
            intro k' h'
            show k' ∉ Dict.keys (st.dims ++ [(k, some (a - st.delta))])
            rw [Dict.keys_append, List.mem_append, not_or]
            refine ⟨hd k' (by simp [h']), ?_⟩
            simp only [Dict.keys_cons, Dict.keys_nil, List.mem_singleton]
            rintro rfl; exact hn.1 h')
          (fun kv hkv => hrem kv (by simp [hkv]))
          (hkeep' st.delta (by simp [hk]))
        refine ⟨st', by rw [List.foldlM_cons, hstep]; exact g1, ?_, ?_, ?_, ?_⟩
        · rw [g2]
          apply List.filter_congr
          rintro ⟨k', t⟩ _
          by_cases hkk : k' = k
          · subst hkk; simp [hk]
          · simp [hkk]
        · rw [g3]; simp [hk, List.filter_cons]
        · rw [g4]; simp [margDims, hk, hs', ha]
        · rw [g5]; simp [margAxes, hk]

theorem get?_margDims (d : PD) (keys : List Str) (k : Str) :
    ∀ (l : Dict Str Val) (δ : ℕ), (Dict.keys l).Nodup →
      Dict.get? (margDims d keys l δ) k =
        match Dict.get? l k with
        | some v => if k ∈ keys then none else if v.issingleton then none
            else some (some ((d.axis k).getD 0 - (δ + (preceding keys k l).length)))
        | none => none := by
  intro l
  induction l with
  | nil => intro δ _; simp [margDims, Dict.get?]
  | cons kv l ih =>
    obtain ⟨k', v⟩ := kv
    intro δ hn
    simp only [Dict.keys_cons, List.nodup_cons] at hn
    by_cases h1 : k' = k
    · subst h1
      have hnone : Dict.get? l k' = none := Dict.get?_eq_none.mpr hn.1
      by_cases h2 : k' ∈ keys
      · simp only [margDims, h2, if_true, ih _ hn.2, hnone, Dict.get?]
      · by_cases h3 : v.issingleton = true
        · simp only [margDims, h2, h3, if_true, if_false, ih _ hn.2, hnone, Dict.get?]
        · have h3' : v.issingleton = false := by simpa using h3
          simp [margDims, h2, h3', Dict.get?, preceding]
    · by_cases h2 : k' ∈ keys
      · simp only [margDims, h2, if_true, ih _ hn.2, Dict.get?, h1, if_false, preceding,
          List.length_cons]
        rw [show δ + 1 + (preceding keys k l).length = δ + ((preceding keys k l).length + 1) by omega]
      · by_cases h3 : v.issingleton = true
        · simp only [margDims, h2, h3, if_true, if_false, ih _ hn.2, Dict.get?, h1, preceding]
        · have h3' : v.issingleton = false := by simpa using h3
          simp only [margDims, h2, h3', Bool.false_eq_true, if_false, Dict.get?, h1, ih _ hn.2,
            preceding]

theorem keys_margDims (d : PD) (keys : List Str) :
    ∀ (l : Dict Str Val) (δ : ℕ), List.Sublist (Dict.keys (margDims d keys l δ))
      ((Dict.keys l).filter (· ∉ keys)) := by
  intro l
  induction l with
  | nil => intro δ; simp [margDims]
  | cons kv l ih =>
    obtain ⟨k', v⟩ := kv
    intro δ
    by_cases h2 : k' ∈ keys
    · simp only [margDims, h2, if_true, Dict.keys_cons]
      rw [List.filter_cons_of_neg (by simpa using h2)]
      exact ih _
    · rw [Dict.keys_cons, List.filter_cons_of_pos (by simpa using h2)]
      by_cases h3 : v.issingleton = true
      · simp only [margDims, h2, h3, if_true, if_false]
        exact (ih _).cons _
      · simp only [margDims, h2, h3, if_false, Dict.keys_cons]
        exact (ih _).cons_cons _

/-! ### indices -/

/-- Agreement on all kept keys is equality after dropping the other axes. -/
theorem dropAxes_eq_of_agree {p : ℕ → Bool} {s i j : List ℕ} (hi : i ∈ idx s)
    (hj : j ∈ idx (dropAxes p s)) :
    dropAxes p i = j ↔ ∀ a < s.length, p a = false → i[a]? = j[a - dropped p a]? := by
  have hli := length_of_mem_idx hi
  have hlj := length_of_mem_idx hj
  constructor
  · rintro rfl a _ ha
    exact (getElem?_dropAxes p i a ha).symm
  · intro h
    apply List.ext_getElem?
    intro b
    by_cases hb : b < (dropAxes p s).length
    · obtain ⟨a, h1, h2, rfl⟩ := exists_kept p s b hb
      rw [getElem?_dropAxes p i a h2, h a h1 h2]
    · rw [List.getElem?_eq_none, List.getElem?_eq_none]
      · rw [hlj]; omega
      · have := length_of_mem_idx (dropAxes_mem_idx p hi); omega

theorem rescaleE_value (x : ℝ) (a b : PScale) (ha : Spec.Valid a) (hb : Spec.Valid b)
    (hsa : evalPscale a.spec = .ok a) (hsb : evalPscale b.spec = .ok b)
    (hc : Spec.Unclamped x a b) : Spec.value b (rescaleE x a b) = Spec.value a x := by
  obtain ⟨y, h1, h2⟩ := C01_rescale_value x a.spec b.spec a b hsa hsb ha hb hc
  simp only [rescale, hsa, hsb, bind, Except.bind, pure, Except.pure, Except.ok.injEq] at h1
  rw [h1]; exact h2

theorem evalPscale_one : evalPscale (.flt 1) = .ok (.lin 1) := by simp [evalPscale]

theorem rescaleE_to_one (x : ℝ) (a : PScale) (ha : Spec.Valid a) (hsa : evalPscale a.spec = .ok a)
    (hc : Spec.Unclamped x a (.lin 1)) : rescaleE x a (.lin 1) = Spec.value a x := by
  have := rescaleE_value x a (.lin 1) ha (by simp [Spec.Valid]) hsa evalPscale_one hc
  simpa [Spec.value] using this

theorem rescaleE_from_one (x : ℝ) (b : PScale) (hb : Spec.Valid b) (hsb : evalPscale b.spec = .ok b)
    (hc : Spec.Unclamped x (.lin 1) b) : Spec.value b (rescaleE x (.lin 1) b) = x := by
  have := rescaleE_value x (.lin 1) b (by simp [Spec.Valid]) hb evalPscale_one hsb hc
  simpa [Spec.value] using this

end Probayes
