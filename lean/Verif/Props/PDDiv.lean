/-
C21 (division).
-/
import Verif.Lemmas.PDDiv
import Verif.Props.PDMarg3
import Verif.Props.PDProduct
import Verif.Props.PDRefuse
import Verif.Props.PDCond

namespace Probayes

variable {fmt : Val → Str} {d e r : PD}

/-- C21 as intended: any distribution with some of the marginal variables, the
same conditions and the same values divides. -/
def C21_claim : Prop :=
  ∀ (fmt : Val → Str) (d e : PD), d.WF fmt → e.WF fmt → d.Pos → Spec.Readable d → Spec.Readable e →
    (∀ k, Spec.OwnAxis d k) → Spec.Ordered d → Spec.Ordered e →
    (∀ k ∈ e.marg.keys, k ∈ d.marg.keys) → (∀ k, k ∈ e.cond.keys ↔ k ∈ d.cond.keys) →
    (∀ k ∈ e.keylist, e.values k = d.values k) →
    ∃ r, d.truediv fmt e = .ok r ∧ r.WF fmt ∧ Spec.Quotient d e r

/-- C21: the quotient.  Missing from the full claim: the restrictions in
`Spec.Divisor`. -/
theorem C21_quotient_partial (h : d.WF fmt) (h' : e.WF fmt) (hpos : d.Pos) (hd : Spec.Readable d)
    (he : Spec.Readable e) (D : Spec.Divisor d e) :
    ∃ r, d.truediv fmt e = .ok r ∧ r.WF fmt ∧ Spec.Quotient d e r := by
  obtain ⟨r, h1, h2, h3, h4, h5, h6, h7, h8, h9⟩ := truediv_core h h' hpos D
  obtain ⟨p, hdrop, -⟩ := D.dropped h h'
  refine ⟨r, h1, h2, h3, ?_, ?_, ?_, h5, h6, h7, h8, hdrop.unique h, ?_, ?_⟩
  · rw [h4]; exact List.prefix_append _ _
  · intro kt
    rw [h4, List.mem_append, mem_condNew h D.marg]
  · intro k
    have : ∀ d' : PD, k ∈ d'.keylist ↔ (d'.values k).isSome := by
      intro d'
      unfold PD.values PD.keylist
      rw [Option.isSome_map, Dict.get?_isSome]
    rw [this, this, h5]
  · intro i hi j hj hag hj0 hw
    have e1 := rescaleE_to_one _ _ hd.1 h.stable (hd.2 i hi)
    have e2 := rescaleE_to_one _ _ he.1 h'.stable (he.2 j hj)
    unfold PD.at at hj0 hw ⊢
    rw [h8, h9 i hi j hj hag, e1, e2, max_eq_right hj0]
    exact rescaleE_from_one _ _ hd.1 h.stable hw
  · intro i hi j hj hag hj0 hw
    have e1 := rescaleE_to_one _ _ hd.1 h.stable (hd.2 i hi)
    have e2 := rescaleE_to_one _ _ he.1 h'.stable (he.2 j hj)
    unfold PD.at at hj0 hw ⊢
    rw [h8, h9 i hi j hj hag, e1, e2, max_eq_left hj0.le]
    exact rescaleE_from_one _ _ hd.1 h.stable hw

/-- Entries of distributions with the same axes correspond by equality. -/
theorem agree_same (h : d.WF fmt) (hax : ∀ k, r.axis k = d.axis k) (hs : r.shape = d.shape)
    {i j : List ℕ} (hi : i ∈ idx d.shape) (hj : j ∈ idx r.shape) : Spec.Agree d r i j ↔ i = j := by
  constructor
  · intro hag
    have hli := length_of_mem_idx hi
    have hlj := length_of_mem_idx hj
    rw [hs] at hlj
    apply List.ext_getElem?
    intro a
    by_cases ha : a < d.ndim
    · obtain ⟨k, hk⟩ := h.cover a ha
      exact hag k a a hk (by rw [hax, hk])
    · rw [← h.rank] at ha
      rw [List.getElem?_eq_none (by omega), List.getElem?_eq_none (by omega)]
  · rintro rfl k a b ha hb
    rw [hax, ha] at hb
    rw [Option.some.inj hb]

theorem Spec.Quotient.condForm (h : d.WF fmt) (hown : ∀ k, Spec.OwnAxis d k) (Q : Spec.Quotient d e r)
    {keys : List Str} (hk : ∀ k, k ∈ e.marg.keys ↔ k ∈ keys) : Spec.CondForm d keys r := by
  refine ⟨?_, Q.condFirst, ?_, Q.keylist, Q.values, Q.pscale, fun k => by rw [Q.axis], ?_, ?_, ?_⟩
  · rw [Q.marg]
    apply List.filter_congr
    intro kt _
    simp [hk]
  · intro kt; rw [Q.cond, hk]
  · intro k k' a ha ha'
    rw [Q.axis] at ha ha'
    exact hown k k' a ha ha'
  · intro i hi
    have hi' : i ∈ idx r.shape := by rw [Q.shape]; exact hi
    exact ⟨i, ⟨hi', (agree_same h Q.axis Q.shape hi hi').mpr rfl⟩,
      fun j hj => ((agree_same h Q.axis Q.shape hi hj.1).mp hj.2).symm⟩
  · intro j hj
    have hj' : j ∈ idx d.shape := by rw [← Q.shape]; exact hj
    exact ⟨j, ⟨hj', (agree_same h Q.axis Q.shape hj' hj).mpr rfl⟩,
      fun i hi => (agree_same h Q.axis Q.shape hi.1 hj).mp hi.2⟩

/-- A marginal is a divisor. -/
theorem Spec.SummedOut.divisor {keys rest : List Str} (h : d.WF fmt) (h' : e.WF fmt)
    (hown : ∀ k, Spec.OwnAxis d k)
    (hkeys : ∀ k ∈ keys, k ∈ d.marg.keys) (hscal : ∀ k ∈ d.marg.keys, d.axis k = none → k ∈ keys)
    (hgiven : ∀ k ∈ d.cond.keys, d.axis k = none) (hs : Spec.SummedOut d rest e)
    (hm : e.marg = d.marg.filter fun kv => kv.1 ∈ keys) : Spec.Divisor d e := by
  have hmk : ∀ k, k ∈ e.marg.keys ↔ k ∈ keys := by
    intro k
    rw [hm]
    show k ∈ Dict.keys _ ↔ _
    rw [Dict.keys_filter (fun k => decide (k ∈ keys)) d.marg, List.mem_filter]
    simp only [decide_eq_true_eq]
    exact ⟨fun h => h.2, fun hk => ⟨hkeys k hk, hk⟩⟩
  refine ⟨fun k hk => hkeys k ((hmk k).mp hk), fun k => by rw [hs.cond], hs.values, ?_, hs.order, ?_, ?_⟩
  · intro k hk
    have := hs.arrays k ((h'.keys k).mpr (Or.inr hk))
    rw [hs.cond] at hk
    rw [hgiven k hk] at this
    simpa using this
  · intro k k' a ha ha' hk
    rw [hown k k' a ha ha']; exact hk
  · intro _ k hk ha
    exact (hmk k).mpr (hscal k hk ha)

/-- The entry of a marginal is the probability of the conditioning values. -/
theorem Spec.SummedOut.massGiven {keys rest : List Str} (h : d.WF fmt) (h' : e.WF fmt)
    (hrest : ∀ k, k ∈ rest ↔ k ∈ d.marg.keys ∧ k ∉ keys)
    (hs : Spec.SummedOut d rest e)
    {i j : List ℕ} (hag : Spec.Agree d e i j) : Spec.massGiven d keys i = Spec.sumAt d e j := by
  classical
  have hmem : ∀ k a, d.axis k = some a → ((k ∈ keys ∨ k ∈ d.cond.keys) ↔ ∃ b, e.axis k = some b) := by
    intro k a ha
    have hk : k ∈ d.keylist := h.dimKeys k (Dict.mem_keys_of_get? (join_eq_some.mp ha))
    have hke : k ∈ e.keylist ↔ k ∉ rest := by
      rw [hs.keylist, List.mem_filter]
      simp [hk]
    constructor
    · intro hor
      have hnr : k ∉ rest := by
        intro hc
        obtain ⟨h1, h2⟩ := (hrest k).mp hc
        rcases hor with h3 | h3
        · exact h2 h3
        · exact h.disj k h1 h3
      have := hs.arrays k (hke.mpr hnr)
      rw [ha] at this
      exact Option.isSome_iff_exists.mp this
    · rintro ⟨b, hb⟩
      have hkl : k ∈ e.keylist := h'.dimKeys k (Dict.mem_keys_of_get? (join_eq_some.mp hb))
      have hnr := hke.mp hkl
      rcases (h.keys k).mp hk with hm | hc
      · left
        by_contra hk'
        exact hnr ((hrest k).mpr ⟨hm, hk'⟩)
      · exact Or.inr hc
  unfold Spec.massGiven Spec.sumAt
  apply Finset.sum_congr _ fun _ _ => rfl
  ext i'
  simp only [Finset.mem_filter]
  refine and_congr_right fun _ => ?_
  constructor
  · intro hall k a b ha hb
    rw [hall k a ha ((hmem k a ha).mpr ⟨b, hb⟩)]
    exact hag k a b ha hb
  · intro hag' k a ha hor
    obtain ⟨b, hb⟩ := (hmem k a ha).mp hor
    rw [hag' k a b ha hb, hag k a b ha hb]

/-- Fit to be divided by its marginal over `keys`: all scalar marginal variables
are among the keys, and no condition is an array. -/
structure Spec.Dividend (fmt : Val → Str) (d : PD) (keys : List Str) : Prop where
  wf : d.WF fmt
  pos : d.Pos
  tame : Spec.Tame d
  ordered : Spec.Ordered d
  own : ∀ k, Spec.OwnAxis d k
  subset : ∀ k ∈ keys, k ∈ d.marg.keys
  scalars : ∀ k ∈ d.marg.keys, d.axis k = none → k ∈ keys
  given : ∀ k ∈ d.cond.keys, d.axis k = none
  ne : keys ≠ [] ∨ d.cond ≠ []

theorem divide_core {keys : List Str} (V : Spec.Dividend fmt d keys) :
    ∃ e rest r, d.marginal fmt keys = .ok e ∧ e.WF fmt ∧ Spec.SummedOut d rest e ∧
      (∀ k, k ∈ rest ↔ k ∈ d.marg.keys ∧ k ∉ keys) ∧ (∀ k, k ∈ e.marg.keys ↔ k ∈ keys) ∧
      e.marg = d.marg.filter (fun kv => kv.1 ∈ keys) ∧
      d.truediv fmt e = .ok r ∧ r.WF fmt ∧ Spec.Quotient d e r := by
  obtain ⟨e, rest, h1, h2, h3, h4, h5, -⟩ := C16_marginal_partial fmt d keys V.wf V.pos V.tame.readable
    V.ordered V.own V.subset V.scalars V.ne
  have D := h3.divisor V.wf h2 V.own V.subset V.scalars V.given h5
  obtain ⟨r, q1, q2, q3⟩ := C21_quotient_partial V.wf h2 V.pos V.tame.readable
    (h3.tame V.tame).readable D
  refine ⟨e, rest, r, h1, h2, h3, h4, ?_, h5, q1, q2, q3⟩
  intro k
  rw [h5]
  show k ∈ Dict.keys _ ↔ _
  rw [Dict.keys_filter (fun k => decide (k ∈ keys)) d.marg, List.mem_filter]
  simp only [decide_eq_true_eq]
  exact ⟨fun h => h.2, fun hk => ⟨V.subset k hk, hk⟩⟩

/-- C21: a joint distribution divided by its marginal over `keys` is the
conditional distribution given `keys`.  Missing: distributions conditioned on
arrays, for which the division raises (`C21_claim_fails`). -/
theorem C21_conditional_partial {keys : List Str} (V : Spec.Dividend fmt d keys)
    (hmass : ∀ i ∈ idx d.shape, npz ≤ Spec.massGiven d keys i) :
    ∃ e r, d.marginal fmt keys = .ok e ∧ d.truediv fmt e = .ok r ∧ r.WF fmt ∧
      Spec.CondForm d keys r ∧ Spec.CondEntries d keys r := by
  obtain ⟨e, rest, r, h1, h2, h3, h4, h5, -, h6, h7, Q⟩ := divide_core V
  have hform := Q.condForm V.wf V.own h5
  refine ⟨e, r, h1, h6, h7, hform, ?_⟩
  intro i hi j hj hag hw
  obtain rfl := (agree_same V.wf Q.axis Q.shape hi hj).mp hag
  obtain ⟨j, ⟨hj, hij⟩, -⟩ := Q.index i hi
  have hm := h3.massGiven V.wf h2 h4 hij
  have he := h3.entry j hj (sumAt_writable V.tame h3 j hj)
  rw [← hm] at he
  rw [← he] at hw ⊢
  exact Q.entry i hi j hj hij (by rw [he]; exact hmass i hi) hw

open Classical in
/-- C21: the quotient sums to one over the remaining variables, for all values of
the conditions. -/
theorem C21_normalised_partial {keys : List Str} (V : Spec.Dividend fmt d keys)
    (hmass : ∀ i ∈ idx d.shape, npz ≤ Spec.massGiven d keys i)
    (hw : ∀ i ∈ idx d.shape, Spec.Writable d.pscale (d.at i / Spec.massGiven d keys i)) :
    ∃ e r, d.marginal fmt keys = .ok e ∧ d.truediv fmt e = .ok r ∧
      ∀ j ∈ idx r.shape, ∑ j' ∈ (idx r.shape).filter (fun j' => ∀ k a, r.axis k = some a →
        k ∈ r.cond.keys → j'[a]? = j[a]?), r.at j' = 1 := by
  obtain ⟨e, r, h1, h2, h3, h4, h5⟩ := C21_conditional_partial V hmass
  exact ⟨e, r, h1, h2, C17_normalised_partial (fun i hi => lt_of_lt_of_le npz_pos (hmass i hi))
    V.wf V.subset h4 h5 hw⟩

/-- C21: multiplying the quotient by the marginal gives the joint distribution
back, at plain scales. -/
theorem C21_back_partial {keys : List Str} (V : Spec.Dividend fmt d keys)
    (hlin : d.pscale.iscomplex = false) (hkeys : keys ≠ []) (hrem : ∃ k ∈ d.marg.keys, k ∉ keys)
    (hsets : ∀ k n, (k ∈ keys ∨ k ∈ d.cond.keys) → d.values k ≠ some (.setint n))
    (hmass : ∀ i ∈ idx d.shape, npz ≤ Spec.massGiven d keys i) :
    ∃ e r m, d.marginal fmt keys = .ok e ∧ d.truediv fmt e = .ok r ∧
      product fmt [e, r] = .ok (some m) ∧ m.WF fmt ∧
      m.marg = e.marg ++ r.marg ∧ (∀ kt, kt ∈ m.marg ↔ kt ∈ d.marg) ∧ (∀ kt, kt ∈ m.cond ↔ kt ∈ d.cond) ∧
      (∀ k ∈ d.keylist, m.values k = d.values k) ∧
      ∀ i ∈ idx d.shape, ∀ j ∈ idx m.shape, Spec.Agree d m i j → m.at j = d.at i := by
  obtain ⟨e, rest, r, h1, h2, h3, h4, h5, hem, h6, h7, Q⟩ := divide_core V
  have hrk : ∀ k, k ∈ r.marg.keys ↔ k ∈ d.marg.keys ∧ k ∉ keys := by
    intro k
    rw [Q.marg]
    show k ∈ Dict.keys _ ↔ _
    rw [Dict.keys_filter (fun k => decide (k ∉ e.marg.keys)) d.marg, List.mem_filter]
    simp only [decide_eq_true_eq, h5]
  have hekl : ∀ k ∈ e.keylist, k ∈ d.keylist := by
    intro k hk; rw [h3.keylist] at hk; exact (List.mem_filter.mp hk).1
  have hunmet : ∀ k, Spec.Unmet [e, r] k → k ∉ keys := by
    intro k hk hc
    exact hk e (by simp) ((h5 k).mpr hc)
  have hgm : ∀ k ∈ keys, Dict.get? r.cond k = Dict.get? e.marg k := by
    intro k hk
    obtain ⟨t, ht⟩ := Dict.get?_of_mem_keys (V.subset k hk)
    have e1 : Dict.get? r.cond k = some t :=
      Dict.get?_of_mem h7.condSide.1 ((Q.cond (k, t)).mpr (Or.inr ⟨Dict.get?_mem ht, (h5 k).mpr hk⟩))
    have e2 : Dict.get? e.marg k = some t := by
      apply Dict.get?_of_mem h2.margSide.1
      rw [hem]
      exact List.mem_filter.mpr ⟨Dict.get?_mem ht, by simpa using hk⟩
    rw [e1, e2]
  have hrpos : r.Pos := by intro n hn; rw [Q.shape] at hn; exact V.pos n hn
  have hepos : e.Pos := fun n hn => V.pos n (h3.sizes n hn)
  have hsame : ∀ k ∈ e.keylist, e.values k = r.values k := by
    intro k hk; rw [h3.values k hk, Q.values]
  have hcd : ∀ k, k ∈ e.cond.keys ↔ k ∈ d.cond.keys := by intro k; rw [h3.cond]
  have F : Spec.Factors fmt [e, r] := by
    refine ⟨by simp, ?_, ?_, ?_, ?_, ?_, ?_, ?_⟩
    · intro a ha
      simp only [List.mem_cons, List.not_mem_nil, or_false] at ha
      rcases ha with rfl | rfl
      · exact h2
      · exact h7
    · intro a ha
      simp only [List.mem_cons, List.not_mem_nil, or_false] at ha
      rcases ha with rfl | rfl
      · exact hepos
      · exact hrpos
    · intro a ha
      simp only [List.mem_cons, List.not_mem_nil, or_false] at ha
      rcases ha with rfl | rfl
      · intro hc
        obtain ⟨k, hk⟩ := List.exists_mem_of_ne_nil keys hkeys
        have := (h5 k).mpr hk
        rw [hc] at this; simp at this
      · intro hc
        obtain ⟨k, hk⟩ := hrem
        have := (hrk k).mpr hk
        rw [hc] at this; simp at this
    · simp only [List.flatMap_cons, List.flatMap_nil, List.append_nil]
      rw [List.nodup_append]
      refine ⟨h2.margSide.1, h7.margSide.1, ?_⟩
      rintro a ha b hb rfl
      exact ((hrk a).mp hb).2 ((h5 a).mp ha)
    · intro a ha b hb k hk1 hk2
      simp only [List.mem_cons, List.not_mem_nil, or_false] at ha hb
      rcases ha with rfl | rfl <;> rcases hb with rfl | rfl
      · exact absurd hk1 (h2.disj k hk2)
      · exact absurd ((hcd k).mp hk1) (V.wf.disj k ((hrk k).mp hk2).1)
      · exact hgm k ((h5 k).mp hk2)
      · exact absurd hk1 (h7.disj k hk2)
    · intro a ha b hb kt hkt hun _
      have hk := hunmet kt.1 hun
      have hrc : ∀ kt' : Str × Str, kt' ∈ r.cond → kt'.1 ∉ keys → kt' ∈ d.cond := by
        intro kt' h hk'
        rcases (Q.cond kt').mp h with h | h
        · exact h
        · exact absurd ((h5 _).mp h.2) hk'
      simp only [List.mem_cons, List.not_mem_nil, or_false] at ha hb
      rcases ha with rfl | rfl <;> rcases hb with rfl | rfl
      · exact hkt
      · exact (Q.cond kt).mpr (Or.inl (by rw [← h3.cond]; exact hkt))
      · rw [h3.cond]; exact hrc kt hkt hk
      · exact hkt
    · intro a ha b hb k hk1 hk2
      simp only [List.mem_cons, List.not_mem_nil, or_false] at ha hb
      rcases ha with rfl | rfl <;> rcases hb with rfl | rfl
      · rfl
      · exact hsame k hk1
      · exact (hsame k hk2).symm
      · rfl
  have heax : ∀ k b, e.axis k = some b → ∃ a, d.axis k = some a := by
    intro k b hb
    have := h3.arrays k (h2.dimKeys k (Dict.mem_keys_of_get? (join_eq_some.mp hb)))
    rw [hb] at this
    exact Option.isSome_iff_exists.mp this.symm
  have G : Spec.Plainly [e, r] := by
    refine ⟨?_, ?_, ?_⟩
    · intro a ha
      simp only [List.mem_cons, List.not_mem_nil, or_false] at ha
      rcases ha with rfl | rfl
      · intro k k' b hb hb'
        obtain ⟨a, ha⟩ := heax k b hb
        obtain ⟨a', ha'⟩ := heax k' b hb'
        have o1 := h3.order k k' a a' b b ha ha' hb hb'
        have o2 := h3.order k' k a' a b b ha' ha hb' hb
        have : a = a' := by omega
        subst this
        exact V.own k k' a ha ha'
      · intro k k' a ha ha'
        rw [Q.axis] at ha ha'
        exact V.own k k' a ha ha'
    · simp only [List.pairwise_cons, List.mem_cons, List.not_mem_nil, or_false, forall_eq,
        false_imp_iff, implies_true, List.Pairwise.nil, and_true]
      intro k hk _ _
      have := h3.arrays k ((h2.keys k).mpr (Or.inr hk))
      rw [V.given k ((hcd k).mp hk)] at this
      simpa using this
    · simp only [List.pairwise_cons, List.mem_cons, List.not_mem_nil, or_false, forall_eq,
        false_imp_iff, implies_true, List.Pairwise.nil, and_true]
      intro k n hv _
      have hk : k ∈ e.keylist := by
        unfold PD.values at hv
        rcases hg : Dict.get? e.vals k with _ | v
        · rw [hg] at hv; simp at hv
        · exact Dict.mem_keys_of_get? hg
      rw [h3.values k hk] at hv
      refine absurd hv (hsets k n ?_)
      rcases (h2.keys k).mp hk with h | h
      · exact Or.inl ((h5 k).mp h)
      · exact Or.inr ((hcd k).mp h)
  obtain ⟨m, p1, p2, P, -⟩ := C19_linear_partial F G (by
    intro a ha
    simp only [List.mem_cons, List.not_mem_nil, or_false] at ha
    rcases ha with rfl | rfl
    · rw [h3.pscale]; exact hlin
    · rw [Q.pscale]; exact hlin)
  have hdr : ∀ k ∈ d.keylist, k ∈ r.keylist := fun k hk => (Q.keylist k).mpr hk
  refine ⟨e, r, m, h1, h6, p1, p2, by simpa using P.marg, ?_, ?_, ?_, ?_⟩
  · intro kt
    rw [P.marg]
    simp only [List.flatMap_cons, List.flatMap_nil, List.append_nil, List.mem_append]
    rw [hem, Q.marg, List.mem_filter, List.mem_filter]
    simp only [decide_eq_true_eq, h5]
    tauto
  · intro kt
    rw [P.cond]
    constructor
    · rintro ⟨⟨a, ha, hkt⟩, hun⟩
      simp only [List.mem_cons, List.not_mem_nil, or_false] at ha
      rcases ha with rfl | rfl
      · rw [← h3.cond]; exact hkt
      · rcases (Q.cond kt).mp hkt with h | h
        · exact h
        · exact absurd ((h5 _).mp h.2) (hunmet _ hun)
    · intro hkt
      refine ⟨⟨e, by simp, by rw [h3.cond]; exact hkt⟩, ?_⟩
      have hc : kt.1 ∈ d.cond.keys := List.mem_map.mpr ⟨kt, hkt, rfl⟩
      intro a ha hm
      simp only [List.mem_cons, List.not_mem_nil, or_false] at ha
      rcases ha with rfl | rfl
      · exact V.wf.disj _ (V.subset _ ((h5 _).mp hm)) hc
      · exact V.wf.disj _ ((hrk _).mp hm).1 hc
  · intro k hk
    rw [P.values r (by simp) k (hdr k hk), Q.values]
  · intro i hi j hj hag
    obtain ⟨j', ⟨hj', hij'⟩, -⟩ := Q.index i hi
    have hmx : ∀ k a, d.axis k = some a → ∃ c, m.axis k = some c := by
      intro k a ha
      have hk : k ∈ d.keylist := V.wf.dimKeys k (Dict.mem_keys_of_get? (join_eq_some.mp ha))
      obtain ⟨s, data, g1, g2, -⟩ := V.wf.axis_some ha
      have hv := P.values r (by simp) k (hdr k hk)
      rw [Q.values] at hv
      unfold PD.values at hv
      rw [g1] at hv
      rcases hg : Dict.get? m.vals k with _ | v
      · rw [hg] at hv; simp at hv
      rw [hg] at hv
      simp only [Option.map_some, Option.some.injEq] at hv
      apply p2.axis_isSome hg
      rw [← issingleton_flat, hv, issingleton_flat]
      have := V.wf.axis_single g1
      rw [ha] at this
      simpa using this
    have hent := P.entry j hj [j', i] (by
      refine .cons ⟨hj', ?_⟩ (.cons ⟨by rw [Q.shape]; exact hi, ?_⟩ .nil)
      · intro k b c hb hc
        obtain ⟨a, ha⟩ := heax k b hb
        rw [← hij' k a b ha hb]
        exact hag k a c ha hc
      · intro k a c ha hc
        rw [Q.axis] at ha
        exact hag k a c ha hc)
    have hm := h3.massGiven V.wf h2 h4 hij'
    have he := h3.entry j' hj' (sumAt_writable V.tame h3 j' hj')
    rw [← hm] at he
    have hwr : Spec.Writable d.pscale (d.at i / e.at j') := by
      rcases hp : d.pscale with c | ⟨re, im⟩
      · trivial
      · rw [hp] at hlin; simp [PScale.iscomplex] at hlin
    have hq := Q.entry i hi j' hj' hij' (by rw [he]; exact hmass i hi) hwr
    rw [hent]
    simp only [List.zipWith_cons_cons, List.zipWith_nil_left, List.prod_cons, List.prod_nil, mul_one, hq]
    have : 0 < e.at j' := by rw [he]; exact lt_of_lt_of_le npz_pos (hmass i hi)
    field_simp

theorem product_pos {args : List PD} {J : PD} (F : Spec.Factors fmt args) (P : Spec.Product args J)
    (hJ : J.WF fmt) : J.Pos := by
  intro n hn
  obtain ⟨a, ha⟩ := List.mem_iff_getElem?.mp hn
  have hal : a < J.ndim := by
    rw [← hJ.rank]; exact (List.getElem?_eq_some_iff.mp ha).1
  obtain ⟨k, hk⟩ := hJ.cover a hal
  have hkl : k ∈ J.keylist := hJ.dimKeys k (Dict.mem_keys_of_get? (join_eq_some.mp hk))
  obtain ⟨b, hb, hkb⟩ : ∃ b ∈ args, k ∈ b.keylist := by
    rcases (hJ.keys k).mp hkl with h | h
    · obtain ⟨kt, h1, rfl⟩ := List.mem_map.mp h
      rw [P.marg] at h1
      obtain ⟨b, hb, h2⟩ := List.mem_flatMap.mp h1
      exact ⟨b, hb, ((F.wf b hb).keys _).mpr (Or.inl (List.mem_map.mpr ⟨kt, h2, rfl⟩))⟩
    · obtain ⟨kt, h1, rfl⟩ := List.mem_map.mp h
      obtain ⟨⟨b, hb, h2⟩, -⟩ := (P.cond kt).mp h1
      exact ⟨b, hb, ((F.wf b hb).keys _).mpr (Or.inr (List.mem_map.mpr ⟨kt, h2, rfl⟩))⟩
  have hv := P.values b hb k hkb
  have hs := isSome_of_values hJ (F.wf b hb) hkl hv
  rw [hk] at hs
  obtain ⟨c, hc⟩ := Option.isSome_iff_exists.mp hs.symm
  rw [size_of_values hJ (F.wf b hb) hv hk hc] at ha
  exact F.pos b hb n (List.mem_of_getElem? ha)

/-- The product of factors on linear scales is fit to be divided. -/
theorem product_dividend {args : List PD} {keys : List Str} (F : Spec.Factors fmt args)
    (G : Spec.Plainly args) (hlin : ∀ a ∈ args, ∃ c : ℝ, 0 < c ∧ a.pscale = .lin c) (hne : keys ≠ [])
    (hkeys : ∀ k ∈ keys, ∃ a ∈ args, k ∈ a.marg.keys)
    (hscal : ∀ a ∈ args, ∀ k ∈ a.marg.keys, a.axis k = none → k ∈ keys)
    (hgiven : ∀ a ∈ args, ∀ k ∈ a.cond.keys, Spec.Unmet args k → a.axis k = none) :
    ∃ J, product fmt args = .ok (some J) ∧ Spec.Product args J ∧ Spec.Dividend fmt J keys ∧
      J.pscale = .lin (args.map fun a => Spec.factor a.pscale).prod := by
  obtain ⟨J, p1, p2, P, ps⟩ := C19_linear_partial F G (by
    intro a ha
    obtain ⟨c, -, hc⟩ := hlin a ha
    rw [hc]; rfl)
  have hmk : ∀ k, k ∈ J.marg.keys ↔ ∃ a ∈ args, k ∈ a.marg.keys := by
    intro k
    rw [P.marg]
    constructor
    · intro hk
      obtain ⟨kt, h1, rfl⟩ := List.mem_map.mp hk
      obtain ⟨a, ha, h2⟩ := List.mem_flatMap.mp h1
      exact ⟨a, ha, List.mem_map.mpr ⟨kt, h2, rfl⟩⟩
    · rintro ⟨a, ha, hk⟩
      obtain ⟨kt, h1, rfl⟩ := List.mem_map.mp hk
      exact List.mem_map.mpr ⟨kt, List.mem_flatMap.mpr ⟨a, ha, h1⟩, rfl⟩
  have hax : ∀ a ∈ args, ∀ k ∈ a.keylist, J.axis k = none ↔ a.axis k = none := by
    intro a ha k hk
    have := isSome_of_values (F.wf a ha) p2 hk (P.values a ha k hk).symm
    rw [← Option.not_isSome_iff_eq_none, ← Option.not_isSome_iff_eq_none, this]
  have hcpos : 0 < (args.map fun a => Spec.factor a.pscale).prod := by
    apply List.prod_pos
    intro x hx
    obtain ⟨a, ha, rfl⟩ := List.mem_map.mp hx
    obtain ⟨c, hc, he⟩ := hlin a ha
    rw [he]; exact hc
  have V : Spec.Dividend fmt J keys := by
    refine ⟨p2, product_pos F P p2, ?_, P.order, P.own, fun k hk => (hmk k).mpr (hkeys k hk), ?_, ?_,
      Or.inl hne⟩
    · unfold Spec.Tame; rw [ps]; exact hcpos
    · intro k hk hn
      obtain ⟨a, ha, hka⟩ := (hmk k).mp hk
      exact hscal a ha k hka ((hax a ha k (((F.wf a ha).keys k).mpr (Or.inl hka))).mp hn)
    · intro k hk
      obtain ⟨kt, h1, rfl⟩ := List.mem_map.mp hk
      obtain ⟨⟨a, ha, h2⟩, hun⟩ := (P.cond kt).mp h1
      have hka : kt.1 ∈ a.cond.keys := List.mem_map.mpr ⟨kt, h2, rfl⟩
      exact (hax a ha _ (((F.wf a ha).keys _).mpr (Or.inr hka))).mpr (hgiven a ha _ hka hun)
  exact ⟨J, p1, P, V, ps⟩

open Classical in
/-- C21, Bayes: the product of prior and likelihood (or of any factors), divided
by its marginal over the observed variables, is the product of the probabilities
divided by the probability of the observations, and sums to one over the rest.
Missing: see `Spec.Plainly`, logarithmic scales, conditions that are arrays. -/
theorem C21_bayes_partial {args : List PD} {keys : List Str} (F : Spec.Factors fmt args)
    (G : Spec.Plainly args) (hlin : ∀ a ∈ args, ∃ c : ℝ, 0 < c ∧ a.pscale = .lin c) (hne : keys ≠ [])
    (hkeys : ∀ k ∈ keys, ∃ a ∈ args, k ∈ a.marg.keys)
    (hscal : ∀ a ∈ args, ∀ k ∈ a.marg.keys, a.axis k = none → k ∈ keys)
    (hgiven : ∀ a ∈ args, ∀ k ∈ a.cond.keys, Spec.Unmet args k → a.axis k = none) :
    ∃ J, product fmt args = .ok (some J) ∧ Spec.Product args J ∧
      ((∀ i ∈ idx J.shape, npz ≤ Spec.massGiven J keys i) →
        ∃ e r, J.marginal fmt keys = .ok e ∧ J.truediv fmt e = .ok r ∧ Spec.CondForm J keys r ∧
          (∀ j ∈ idx J.shape, ∀ j' ∈ idx r.shape, Spec.Agree J r j j' → ∀ ix : List (List ℕ),
            List.Forall₂ (fun a i => i ∈ idx a.shape ∧ Spec.Agree a J i j) args ix →
            r.at j' = (List.zipWith PD.at args ix).prod / Spec.massGiven J keys j) ∧
          ∀ j ∈ idx r.shape, ∑ j' ∈ (idx r.shape).filter (fun j' => ∀ k a, r.axis k = some a →
            k ∈ r.cond.keys → j'[a]? = j[a]?), r.at j' = 1) := by
  obtain ⟨J, p1, P, V, ps⟩ := product_dividend F G hlin hne hkeys hscal hgiven
  refine ⟨J, p1, P, ?_⟩
  intro hmass
  have hw : ∀ x, Spec.Writable J.pscale x := by
    intro x; rw [ps]; trivial
  obtain ⟨e, r, h1, h2, h3, h4, h5⟩ := C21_conditional_partial V hmass
  refine ⟨e, r, h1, h2, h4, ?_, C17_normalised_partial
    (fun i hi => lt_of_lt_of_le npz_pos (hmass i hi)) V.wf V.subset h4 h5 fun i _ => hw _⟩
  intro j hj j' hj' hag ix hix
  rw [h5 j hj j' hj' hag (hw _), P.entry j hj ix hix]

/-! ### refusals -/

/-- C21: different conditions are refused. -/
theorem C21_conditions_refused (k : Str)
    (hk : ¬ (k ∈ d.cond.keys ↔ k ∈ e.cond.keys)) : d.truediv fmt e = .error .assertion := by
  unfold PD.truediv
  rw [if_neg]
  intro hc
  simp only [divOK, Bool.and_eq_true, List.all_eq_true, decide_eq_true_eq] at hc
  exact hk ⟨hc.1.1 k, hc.1.2 k⟩

/-- C21: a divisor of scalars must have exactly the scalar marginal variables of
the dividend. -/
theorem C21_scalars_refused (h : d.WF fmt) (h' : e.WF fmt) (hs : ∀ k, e.axis k = none) (k : Str)
    (hk : ¬ ((k ∈ d.marg.keys ∧ d.axis k = none) ↔ k ∈ e.marg.keys)) :
    d.truediv fmt e = .error .assertion := by
  unfold PD.truediv
  rw [if_neg]
  intro hc
  have hsing : e.dist.issingleton = true := by
    rw [h'.is, List.all_eq_true]
    rintro ⟨k, v⟩ hkv
    exact (h'.axis_single (Dict.get?_of_mem h'.nodup hkv)).mpr (hs k)
  simp only [divOK, hsing, Bool.and_eq_true, List.all_eq_true, decide_eq_true_eq, Bool.not_true,
    Bool.false_or] at hc
  apply hk
  constructor
  · rintro ⟨h1, h2⟩
    apply hc.2.1 k
    obtain ⟨v, hv⟩ := Dict.get?_of_mem_keys ((h.keys k).mpr (Or.inl h1))
    refine List.mem_map.mpr ⟨(k, v), ?_, rfl⟩
    simp only [List.mem_filter, Bool.and_eq_true, decide_eq_true_eq]
    exact ⟨Dict.get?_mem hv, h1, (h.axis_single hv).mpr h2⟩
  · intro h1
    obtain ⟨⟨k', v⟩, h2, rfl⟩ := List.mem_map.mp (hc.2.2 k h1)
    simp only [List.mem_filter, Bool.and_eq_true, decide_eq_true_eq] at h2
    exact ⟨h2.2.1, h.axis_none (Dict.get?_of_mem h.nodup h2.1) h2.2.2⟩

/-! ### examples and counterexamples -/

theorem cubePD_dividend (keys : List Str) (hk : ∀ k ∈ keys, k ∈ cubePD.marg.keys) (hne : keys ≠ []) :
    Spec.Dividend (fun _ => []) cubePD keys := by
  refine ⟨cubePD_wf, cubePD_pos, one_pos, cubePD_ordered, cubePD_own, hk, ?_, ?_, Or.inl hne⟩
  · intro k hk hn
    simp only [cubePD, Dict.keys, List.map_cons, List.map_nil, List.mem_cons, List.not_mem_nil, or_false] at hk
    rcases hk with rfl | rfl | rfl <;> simp [PD.axis, cubePD, Dict.get?] at hn
  · intro k hk; simp [cubePD] at hk

/-- Non-vacuity of `C21_conditional_partial`, `C21_normalised_partial` and
`C21_back_partial`: p(x, y, z) / p(y) is p(x, z | y), although conditioning on y
raises (`C17_claim_fails`); multiplied by p(y) it gives p(x, y, z) back. -/
example : ∃ e r m, cubePD.marginal (fun _ => []) [['y']] = .ok e ∧ cubePD.truediv (fun _ => []) e = .ok r ∧
      product (fun _ => []) [e, r] = .ok (some m) ∧ m.WF (fun _ => []) ∧
      m.marg = e.marg ++ r.marg ∧ (∀ kt, kt ∈ m.marg ↔ kt ∈ cubePD.marg) ∧
      (∀ kt, kt ∈ m.cond ↔ kt ∈ cubePD.cond) ∧
      (∀ k ∈ cubePD.keylist, m.values k = cubePD.values k) ∧
      ∀ i ∈ idx cubePD.shape, ∀ j ∈ idx m.shape, Spec.Agree cubePD m i j → m.at j = cubePD.at i :=
  C21_back_partial (cubePD_dividend _ (by decide) (by simp)) rfl (by simp) ⟨['x'], by decide, by decide⟩
    (by
      intro k n hk
      rcases hk with hk | hk
      · simp only [List.mem_cons, List.not_mem_nil, or_false] at hk
        subst hk
        simp [PD.values, cubePD, Dict.get?, Val.flat]
      · simp [cubePD] at hk)
    (cubePD_divisible _).mass

/-- p(x, y | z). -/
noncomputable def givenPD : PD :=
  ⟨['x', ',', 'y', '|', 'z'], [(['x'], ['x']), (['y'], ['y'])], [(['z'], ['z'])],
   ⟨[(['x'], .arr [2, 1, 1] [1, 2]), (['y'], .arr [1, 2, 1] [1, 2]), (['z'], .arr [1, 1, 2] [1, 2])],
    [(['x'], some 0), (['y'], some 1), (['z'], some 2)],
    3, [2, 2, 2], [2, 2, 2], 8, [false, false, false], false⟩,
   ⟨[2, 2, 2], fun _ => 1 / 4⟩, .lin 1⟩

/-- p(x | z). -/
noncomputable def givenMarg : PD :=
  ⟨['x', '|', 'z'], [(['x'], ['x'])], [(['z'], ['z'])],
   ⟨[(['x'], .arr [2, 1] [1, 2]), (['z'], .arr [1, 2] [1, 2])],
    [(['x'], some 0), (['z'], some 1)],
    2, [2, 2], [2, 2], 4, [false, false], false⟩,
   ⟨[2, 2], fun _ => 1 / 2⟩, .lin 1⟩

/-- C21 as intended does not hold: p(x, y | z) / p(x | z) raises ValueError, as the
divisor is given the axis of x only. -/
theorem C21_given_raises : givenPD.truediv (fun _ => []) givenMarg = .error .value := by
  have hok : divOK givenPD givenMarg = true := by decide
  unfold PD.truediv
  rw [if_pos hok]
  rfl

theorem C21_claim_fails : ¬ C21_claim := by
  intro hc
  have hwf : givenPD.WF (fun _ => []) := PD.wf_of_check (by decide) rfl lin1_stable
  have hwf' : givenMarg.WF (fun _ => []) := PD.wf_of_check (by decide) rfl lin1_stable
  obtain ⟨r, hr, -⟩ := hc (fun _ => []) givenPD givenMarg hwf hwf'
    (by show ∀ n ∈ [2, 2, 2], 0 < n; decide) (readable_lin (c := 1) rfl one_pos)
    (readable_lin (c := 1) rfl one_pos)
    (own_of_check hwf (by decide)) (ordered_of_check (by decide)) (ordered_of_check (by decide))
    (by decide) (by intro k; exact Iff.rfl) (by decide)
  rw [C21_given_raises] at hr
  simp at hr

open Classical in
/-- Non-vacuity of `C21_bayes_partial`: from p(x, y | z, u=1) and p(z | u=1) on
different scales, the posterior p(z | u=1, x, y). -/
example : ∃ J e r, product (fun _ => ['1']) [factorA (.lin 1), factorB (.lin 2)] = .ok (some J) ∧
    J.marginal (fun _ => ['1']) [['x'], ['y']] = .ok e ∧ J.truediv (fun _ => ['1']) e = .ok r ∧
    ∀ j ∈ idx r.shape, ∑ j' ∈ (idx r.shape).filter (fun j' => ∀ k a, r.axis k = some a →
      k ∈ r.cond.keys → j'[a]? = j[a]?), r.at j' = 1 := by
  obtain ⟨F, G⟩ := factors_ok (.lin 1) (.lin 2) (by simp [PScale.spec, evalPscale])
    (by simp [PScale.spec, evalPscale])
  obtain ⟨J, h1, P, h2⟩ := C21_bayes_partial (keys := [['x'], ['y']]) F G (by
      simp only [List.mem_cons, List.not_mem_nil, or_false]
      rintro a (rfl | rfl)
      · exact ⟨1, one_pos, rfl⟩
      · exact ⟨2, two_pos, rfl⟩) (by simp) (by
      intro k hk
      refine ⟨_, List.mem_cons_self, ?_⟩
      simp only [List.mem_cons, List.not_mem_nil, or_false] at hk
      rcases hk with rfl | rfl <;> simp [factorA]) (by
      simp only [List.mem_cons, List.not_mem_nil, or_false]
      rintro a (rfl | rfl) k hk hn
      · simp only [factorA, Dict.keys, List.map_cons, List.map_nil, List.mem_cons, List.not_mem_nil, or_false] at hk
        exact hk
      · simp only [factorB, Dict.keys, List.map_cons, List.map_nil, List.mem_cons, List.not_mem_nil, or_false] at hk
        subst hk
        simp [PD.axis, factorB, Dict.get?] at hn) (by
      simp only [List.mem_cons, List.not_mem_nil, or_false]
      rintro a (rfl | rfl) k hk hun
      · simp only [factorA, Dict.keys, List.map_cons, List.map_nil, List.mem_cons, List.not_mem_nil, or_false] at hk
        rcases hk with rfl | rfl
        · exact absurd (by simp [factorB]) (hun (factorB (.lin 2)) (by simp))
        · rfl
      · simp only [factorB, Dict.keys, List.map_cons, List.map_nil, List.mem_cons, List.not_mem_nil, or_false] at hk
        subst hk; rfl)
  have hat : ∀ j ∈ idx J.shape, 1 / 4 ≤ J.at j := by
    intro j hj
    obtain ⟨a, ⟨ha, ha'⟩, -⟩ := P.index j hj (factorA (.lin 1)) (by simp)
    obtain ⟨b, ⟨hb, hb'⟩, -⟩ := P.index j hj (factorB (.lin 2)) (by simp)
    rw [P.entry j hj [a, b] (.cons ⟨ha, ha'⟩ (.cons ⟨hb, hb'⟩ .nil))]
    have hA : 1 / 4 ≤ (factorA (.lin 1)).at a := by
      show 1 / 4 ≤ Spec.value (.lin 1) ((1 + (a.getD 0 0 : ℝ)) / (2 + a.getD 1 0 + a.getD 2 0))
      have ha2 : a ∈ idx [3, 2, 2] := ha
      simp only [mem_idx] at ha2
      obtain ⟨x, y, z, rfl, i1, i2⟩ : ∃ x y z, a = [x, y, z] ∧ y < 2 ∧ z < 2 := by
        match a, ha2 with
        | [x, y, z], .cons _ (.cons i1 (.cons i2 .nil)) => exact ⟨x, y, z, rfl, i1, i2⟩
      simp only [Spec.value, Spec.factor, List.getD_cons_zero, List.getD_cons_succ]
      have h1 : (y : ℝ) ≤ 1 := by exact_mod_cast Nat.le_of_lt_succ i1
      have h2 : (z : ℝ) ≤ 1 := by exact_mod_cast Nat.le_of_lt_succ i2
      have h0 : (0 : ℝ) ≤ x := Nat.cast_nonneg _
      have h3 : (0 : ℝ) ≤ y := Nat.cast_nonneg _
      have h4 : (0 : ℝ) ≤ z := Nat.cast_nonneg _
      have : 1 / 4 ≤ (1 + (x : ℝ)) / (2 + y + z) := by
        rw [le_div_iff₀ (by linarith)]; linarith
      linarith
    have hB : 1 ≤ (factorB (.lin 2)).at b := by
      show 1 ≤ Spec.value (.lin 2) (1 / (1 + (b.getD 0 0 : ℝ)))
      have hb2 : b ∈ idx [2] := hb
      simp only [mem_idx] at hb2
      obtain ⟨x, rfl, i0⟩ : ∃ x, b = [x] ∧ x < 2 := by
        match b, hb2 with
        | [x], .cons i0 .nil => exact ⟨x, rfl, i0⟩
      simp only [Spec.value, Spec.factor, List.getD_cons_zero]
      have h1 : (x : ℝ) ≤ 1 := by exact_mod_cast Nat.le_of_lt_succ i0
      have h0 : (0 : ℝ) ≤ x := Nat.cast_nonneg _
      have : 1 / 2 ≤ 1 / (1 + (x : ℝ)) := by
        rw [div_le_div_iff₀ (by norm_num) (by linarith)]; linarith
      linarith
    simp only [List.zipWith_cons_cons, List.zipWith_nil_left, List.prod_cons, List.prod_nil, mul_one]
    nlinarith
  obtain ⟨e, r, q1, q2, -, -, q3⟩ := h2 (by
    intro i hi
    have h0 : npz ≤ 1 / 4 := le_trans npz_le_inv (by norm_num)
    refine le_trans h0 (le_trans (hat i hi) ?_)
    unfold Spec.massGiven
    refine Finset.single_le_sum (f := J.at) (fun i' hi' => ?_) (Finset.mem_filter.mpr ⟨hi, fun _ _ _ _ => rfl⟩)
    exact le_trans (by norm_num) (hat i' (Finset.mem_filter.mp hi').1))
  exact ⟨J, e, r, h1, q1, q2, q3⟩

/-- p(y, x), with the axes of `cubePD` in the other order. -/
noncomputable def flipPD : PD :=
  ⟨['y', ',', 'x'], [(['y'], ['y']), (['x'], ['x'])], [],
   ⟨[(['y'], .arr [2, 1] [1, 2]), (['x'], .arr [1, 2] [1, 2])], [(['y'], some 0), (['x'], some 1)],
    2, [2, 2], [2, 2], 4, [false, false], false⟩,
   ⟨[2, 2], fun i => if i = [0, 1] then 1 / 8 else 3 / 8⟩, .lin 1⟩

/-- C21 fails when the variables of the divisor are in another order: in
p(x, y, z) / p(y, x) the probability of x=1, y=2 is divided by that of x=2, y=1. -/
theorem C21_order_fails :
    cubePD.WF (fun _ => []) ∧ flipPD.WF (fun _ => []) ∧
    (∀ k ∈ flipPD.marg.keys, k ∈ cubePD.marg.keys) ∧ (∀ k, k ∈ flipPD.cond.keys ↔ k ∈ cubePD.cond.keys) ∧
    (∀ k ∈ flipPD.keylist, flipPD.values k = cubePD.values k) ∧
    ∃ r, cubePD.truediv (fun _ => []) flipPD = .ok r ∧ r.WF (fun _ => []) ∧
      Spec.Agree cubePD flipPD [0, 1, 0] [1, 0] ∧
      cubePD.at [0, 1, 0] / flipPD.at [1, 0] = 1 / 3 ∧ r.at [0, 1, 0] = 1 := by
  have hwf : flipPD.WF (fun _ => []) := PD.wf_of_check (by decide) rfl lin1_stable
  refine ⟨cubePD_wf, hwf, by decide, fun k => Iff.rfl, by decide, ?_⟩
  let vals : Dict Str Val := [(['z'], .arr [1, 1, 2] [1, 2]), (['x'], .arr [2, 1, 1] [1, 2]),
    (['y'], .arr [1, 2, 1] [1, 2])]
  have hB := divBuild (keys := [['y'], ['x']]) cubePD_wf cubePD_pos (by decide) (vals := vals) (by decide) (by
    intro k
    simp only [vals, cubePD, Dict.get?]
    by_cases h1 : k = ['z']
    · subst h1; rfl
    · by_cases h2 : k = ['x']
      · subst h2; rfl
      · by_cases h3 : k = ['y']
        · subst h3; rfl
        · simp [Ne.symm h1, Ne.symm h2, Ne.symm h3])
  let q : Arr := ⟨[2, 2, 1], fun j => flipPD.prob.get (unravelIx [2, 2] (ravelIx [2, 2, 1] j))⟩
  obtain ⟨R, t1, t2, t3⟩ := divProbArr_ok (x := cubePD.prob) (y := q) (s := .lin 1) (t := .lin 1)
    lin1_stable lin1_stable (Or.inr (by
      show Fits [2, 2, 1] [2, 2, 2]
      exact .cons (Or.inl rfl) (.cons (Or.inl rfl) (.cons (Or.inr rfl) .nil))))
  obtain ⟨r, i1, i2, -, -, -, -, -, i8, i9⟩ := pdInit_ok hB R t2 (PScale.lin 1).spec (.lin 1) lin1_stable
  refine ⟨r, ?_, i2, ?_, ?_, ?_⟩
  · have hok : divOK cubePD flipPD = true := by decide
    unfold PD.truediv
    rw [if_pos hok]
    show (divProbArr cubePD.prob q (PScale.lin 1).spec (PScale.lin 1).spec >>= fun prob =>
      pdInit (fun _ => []) _ vals (some cubePD.dims) prob (PScale.lin 1).spec) = _
    rw [t1]
    exact i1
  · intro k a b ha hb
    have hk : k ∈ flipPD.keylist := hwf.dimKeys k (Dict.mem_keys_of_get? (join_eq_some.mp hb))
    simp only [PD.keylist, flipPD, Dict.keys, List.map_cons, List.map_nil, List.mem_cons, List.not_mem_nil, or_false] at hk
    rcases hk with rfl | rfl
    · obtain rfl : 1 = a := by simpa [PD.axis, cubePD, Dict.get?] using ha
      obtain rfl : 0 = b := by simpa [PD.axis, flipPD, Dict.get?] using hb
      rfl
    · obtain rfl : 0 = a := by simpa [PD.axis, cubePD, Dict.get?] using ha
      obtain rfl : 1 = b := by simpa [PD.axis, flipPD, Dict.get?] using hb
      rfl
  · simp [PD.at, cubePD, flipPD, Spec.value, Spec.factor]; norm_num
  · have hv := t3 [0, 1, 0] (by show [0, 1, 0] ∈ idx [2, 2, 2]; decide)
    have hone : ∀ x, rescaleE x (.lin 1) (.lin 1) = x := fun x => by
      simpa [Spec.value, Spec.factor] using rescaleE_to_one x (.lin 1) one_pos lin1_stable trivial
    have hq : q.bget [0, 1, 0] = 1 / 8 := by
      rw [bget_self (a := q) (by show [0, 1, 0] ∈ idx [2, 2, 1]; decide)]
      show (if unravelIx [2, 2] (ravelIx [2, 2, 1] [0, 1, 0]) = [0, 1] then (1 : ℝ) / 8 else 3 / 8) = _
      rw [if_pos (by decide)]
    have hc : cubePD.prob.get [0, 1, 0] = 1 / 8 := rfl
    simp only [hone, hq, hc] at hv
    rw [PD.at, i9, i8, hv, max_eq_right (le_trans npz_le_inv (by norm_num))]
    simp [Spec.value, Spec.factor]

/-- p(x=1, y). -/
noncomputable def fixedPD : PD :=
  ⟨['x', '=', '1', ',', 'y'], [(['x'], ['x', '=', '1']), (['y'], ['y'])], [],
   ⟨[(['x'], .scalar 1), (['y'], .arr [2] [1, 2])], [(['x'], none), (['y'], some 0)],
    1, [2], [2], 2, [true, false], false⟩, ⟨[2], fun _ => 1 / 8⟩, .lin 1⟩

/-- C21: the values of the divisor are not compared: p(x=1, y) / p(x=2) is not
refused, and the result is called p(y | x=1). -/
theorem C21_values_ignored :
    fixedPD.WF numText ∧ mismatchB.WF numText ∧ fixedPD.values ['x'] ≠ mismatchB.values ['x'] ∧
    ∃ r, fixedPD.truediv numText mismatchB = .ok r ∧ r.name = ['y', '|', 'x', '=', '1'] ∧
      r.prob.get [0] = 1 / 2 := by
  have hwf : fixedPD.WF numText := PD.wf_of_check (by decide) rfl lin1_stable
  refine ⟨hwf, PD.wf_of_check (by decide) rfl lin1_stable, by decide, ?_⟩
  let vals : Dict Str Val := [(['y'], .arr [2] [1, 2]), (['x'], .scalar 1)]
  have hB := divBuild (keys := [['x']]) hwf (by show ∀ n ∈ [2], 0 < n; decide) (by decide)
    (vals := vals) (by decide) (by
    intro k
    simp only [vals, fixedPD, Dict.get?]
    by_cases h1 : k = ['y']
    · subst h1; rfl
    · by_cases h2 : k = ['x']
      · subst h2; rfl
      · simp [Ne.symm h1, Ne.symm h2])
  obtain ⟨R, t1, t2, t3⟩ := divProbArr_ok (x := fixedPD.prob) (y := mismatchB.prob) (s := .lin 1) (t := .lin 1)
    lin1_stable lin1_stable (Or.inl rfl)
  obtain ⟨r, i1, i2, i3, i4, -, -, -, i8, i9⟩ := pdInit_ok hB R t2 (PScale.lin 1).spec (.lin 1) lin1_stable
  refine ⟨r, ?_, ?_, ?_⟩
  · have hok : divOK fixedPD mismatchB = true := by decide
    unfold PD.truediv
    rw [if_pos hok]
    show (divProbArr fixedPD.prob mismatchB.prob (PScale.lin 1).spec (PScale.lin 1).spec >>= fun prob =>
      pdInit numText _ vals (some fixedPD.dims) prob (PScale.lin 1).spec) = _
    rw [t1]
    exact i1
  · rw [i2.name, i3, i4]; decide
  · have hv := t3 [0] (by show [0] ∈ idx [2]; decide)
    have hone : ∀ x, rescaleE x (.lin 1) (.lin 1) = x := fun x => by
      simpa [Spec.value, Spec.factor] using rescaleE_to_one x (.lin 1) one_pos lin1_stable trivial
    have hq : mismatchB.prob.bget [0] = 1 / 4 := rfl
    have hc : fixedPD.prob.get [0] = 1 / 8 := rfl
    simp only [hone, hq, hc] at hv
    rw [i8, hv, max_eq_right (le_trans npz_le_inv (by norm_num))]
    norm_num

end Probayes
