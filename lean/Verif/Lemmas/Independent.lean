/-
Lemmas for C96: the entries of a product of distributions of separate variables are the
choices of one entry of every factor.
-/
import Verif.Spec.Independent
import Verif.Lemmas.Infer
import Mathlib.Algebra.BigOperators.Ring.Finset
import Mathlib.Algebra.BigOperators.Fin

namespace Probayes

variable {fmt : Val → Str} {args : List PD} {J : PD}

theorem Spec.Independent.keylist (I : Spec.Independent fmt args) {a : PD} (ha : a ∈ args) (k : Str) :
    k ∈ a.keylist ↔ k ∈ a.marg.keys := by
  rw [(I.wf a ha).keys k, I.free a ha]
  simp [Dict.keys]

theorem mem_flatMap_keys {k : Str} :
    k ∈ Dict.keys (args.flatMap PD.marg) ↔ ∃ a ∈ args, k ∈ a.marg.keys := by
  constructor
  · intro hk
    obtain ⟨kt, h1, rfl⟩ := List.mem_map.mp hk
    obtain ⟨a, ha, h2⟩ := List.mem_flatMap.mp h1
    exact ⟨a, ha, List.mem_map.mpr ⟨kt, h2, rfl⟩⟩
  · rintro ⟨a, ha, hk⟩
    obtain ⟨kt, h1, rfl⟩ := List.mem_map.mp hk
    exact List.mem_map.mpr ⟨kt, List.mem_flatMap.mpr ⟨a, ha, h1⟩, rfl⟩

theorem Spec.Independent.cond (I : Spec.Independent fmt args) (P : Spec.Product args J) : J.cond = [] := by
  rw [List.eq_nil_iff_forall_not_mem]
  intro kt hkt
  obtain ⟨⟨a, ha, h⟩, -⟩ := (P.cond kt).mp hkt
  rw [I.free a ha] at h
  simp at h

theorem Spec.Independent.keys (I : Spec.Independent fmt args) (hJ : J.WF fmt) (P : Spec.Product args J)
    (k : Str) : k ∈ J.keylist ↔ ∃ l : Fin args.length, k ∈ args[l].marg.keys := by
  rw [hJ.keys k, I.cond P, P.marg, mem_flatMap_keys]
  simp only [Dict.keys, List.map_nil, List.not_mem_nil, or_false]
  constructor
  · rintro ⟨a, ha, hk⟩
    obtain ⟨n, hn, rfl⟩ := List.mem_iff_getElem.mp ha
    exact ⟨⟨n, hn⟩, hk⟩
  · rintro ⟨l, hk⟩
    exact ⟨_, List.getElem_mem l.2, hk⟩

/-- A variable belongs to one factor. -/
theorem Spec.Independent.one (I : Spec.Independent fmt args) {l m : Fin args.length} {k : Str}
    (hl : k ∈ args[l].marg.keys) (hm : k ∈ args[m].marg.keys) : l = m := by
  have h := (List.nodup_flatMap.mp I.distinct).2
  rw [List.pairwise_iff_getElem] at h
  rcases lt_trichotomy l.1 m.1 with hlt | heq | hlt
  · exact absurd hm (h l.1 m.1 l.2 m.2 hlt hl)
  · exact Fin.ext heq
  · exact absurd hl (h m.1 l.1 m.2 l.2 hlt hm)

/-- An array variable of the product is an array variable of its factor. -/
theorem Spec.Independent.axis (I : Spec.Independent fmt args) (hJ : J.WF fmt) (P : Spec.Product args J)
    {k : Str} {a : ℕ} (ha : J.axis k = some a) :
    ∃ (l : Fin args.length) (b : ℕ), k ∈ args[l].marg.keys ∧ args[l].axis k = some b := by
  have hk : k ∈ J.keylist := hJ.dimKeys k (Dict.mem_keys_of_get? (join_eq_some.mp ha))
  obtain ⟨l, hl⟩ := (I.keys hJ P k).mp hk
  have hmem : args[l] ∈ args := List.getElem_mem l.2
  have hs := isSome_of_values hJ (I.wf _ hmem) hk (P.values _ hmem k ((I.keylist hmem k).mpr hl))
  rw [ha] at hs
  obtain ⟨b, hb⟩ := Option.isSome_iff_exists.mp hs.symm
  exact ⟨l, b, hl, hb⟩

theorem Spec.Independent.axis' (I : Spec.Independent fmt args) (hJ : J.WF fmt) (P : Spec.Product args J)
    {l : Fin args.length} {k : Str} {b : ℕ} (hb : args[l].axis k = some b) :
    k ∈ args[l].marg.keys ∧ ∃ a, J.axis k = some a := by
  have hmem : args[l] ∈ args := List.getElem_mem l.2
  have hk : k ∈ args[l].keylist :=
    (I.wf _ hmem).dimKeys k (Dict.mem_keys_of_get? (join_eq_some.mp hb))
  have hs := isSome_of_values (I.wf _ hmem) hJ hk (P.values _ hmem k hk).symm
  rw [hb] at hs
  exact ⟨(I.keylist hmem k).mp hk, Option.isSome_iff_exists.mp hs.symm⟩

/-- Every choice of one entry per factor is at exactly one entry of the product. -/
theorem Spec.Independent.choice (I : Spec.Independent fmt args) (hJ : J.WF fmt) (P : Spec.Product args J)
    (t : Fin args.length → List ℕ) (ht : ∀ l, t l ∈ idx args[l].shape) :
    ∃! j, j ∈ idx J.shape ∧ ∀ l, Spec.Agree args[l] J (t l) j := by
  classical
  have hwf : ∀ l : Fin args.length, args[l].WF fmt := fun l => I.wf _ (List.getElem_mem l.2)
  let c : Str → ℕ := fun k => if h : ∃ l : Fin args.length, k ∈ args[l].marg.keys then
    args[h.choose].read (t h.choose) k else 0
  have hc : ∀ (l : Fin args.length) k, k ∈ args[l].marg.keys → c k = args[l].read (t l) k := by
    intro l k hk
    have hex : ∃ l : Fin args.length, k ∈ args[l].marg.keys := ⟨l, hk⟩
    have : hex.choose = l := I.one hex.choose_spec hk
    simp only [c, hex, dif_pos, this]
  have key : ∀ j ∈ idx J.shape, (∀ k a, J.axis k = some a → J.read j k = c k) ↔
      ∀ l, Spec.Agree args[l] J (t l) j := by
    intro j hj
    constructor
    · intro h l k b a hb ha
      rw [(read_of_axis hJ hj ha).1, (read_of_axis (hwf l) (ht l) hb).1, h k a ha,
        hc l k (I.axis' hJ P hb).1]
    · intro h k a ha
      obtain ⟨l, b, hl, hb⟩ := I.axis hJ P ha
      have := h l k b a hb ha
      rw [(read_of_axis hJ hj ha).1, (read_of_axis (hwf l) (ht l) hb).1] at this
      rw [hc l k hl]
      exact (Option.some.inj this).symm
  obtain ⟨j, ⟨h1, h2⟩, h3⟩ := exists_entry hJ P.own (c := c) (by
    intro k a n ha hn
    obtain ⟨l, b, hl, hb⟩ := I.axis hJ P ha
    have hmem : args[l] ∈ args := List.getElem_mem l.2
    have := size_of_values hJ (hwf l) (P.values _ hmem k ((I.keylist hmem k).mpr hl)) ha hb
    rw [hc l k hl]
    exact (read_of_axis (hwf l) (ht l) hb).2 n (by rw [← this, hn]))
  exact ⟨j, ⟨h1, (key j h1).mp h2⟩, fun j' hj' => h3 j' ⟨hj'.1, (key j' hj'.1).mpr hj'.2⟩⟩

theorem zipWith_ofFn_prod (args : List PD) (f : Fin args.length → List ℕ) :
    (List.zipWith PD.at args (List.ofFn f)).prod = ∏ l : Fin args.length, args[l].at (f l) := by
  rw [← List.prod_ofFn]
  congr 1
  apply List.ext_getElem
  · simp
  · intro n h1 h2
    simp

/-- An entry of the product is the product of the entries of the factors. -/
theorem Spec.Product.entry_fin (P : Spec.Product args J) {j : List ℕ} (hj : j ∈ idx J.shape)
    (f : Fin args.length → List ℕ)
    (hf : ∀ l, f l ∈ idx args[l].shape ∧ Spec.Agree args[l] J (f l) j) :
    J.at j = ∏ l : Fin args.length, args[l].at (f l) := by
  rw [P.entry j hj (List.ofFn f), zipWith_ofFn_prod]
  rw [List.forall₂_iff_get]
  refine ⟨by simp, ?_⟩
  intro n h1 h2
  simp only [List.get_eq_getElem, List.getElem_ofFn]
  exact hf ⟨n, h1⟩

open Classical in
/-- The mass of the entries of the product at given entries of some of the factors. -/
theorem Spec.Independent.sum (I : Spec.Independent fmt args) (hJ : J.WF fmt) (P : Spec.Product args J)
    (S : Finset (Fin args.length)) (t : Fin args.length → List ℕ)
    (ht : ∀ l ∈ S, t l ∈ idx args[l].shape) :
    ∑ j ∈ (idx J.shape).filter (fun j => ∀ l ∈ S, Spec.Agree args[l] J (t l) j), J.at j =
      ∏ l, if l ∈ S then args[l].at (t l) else Spec.mass args[l] := by
  have hidx : ∀ j ∈ idx J.shape, ∀ l : Fin args.length,
      ∃! i, i ∈ idx args[l].shape ∧ Spec.Agree args[l] J i j :=
    fun j hj l => P.index j hj _ (List.getElem_mem l.2)
  choose! f hf hu using hidx
  have e : ∀ l : Fin args.length, (if l ∈ S then args[l].at (t l) else Spec.mass args[l]) =
      ∑ i ∈ (if l ∈ S then {t l} else idx args[l].shape), args[l].at i := by
    intro l
    by_cases h : l ∈ S
    · simp [h]
    · simp [h, Spec.mass]
  simp only [e]
  rw [Finset.prod_univ_sum]
  refine Finset.sum_bij (fun j _ => f j) ?_ ?_ ?_ ?_
  · intro j hj
    rw [Finset.mem_filter] at hj
    rw [Fintype.mem_piFinset]
    intro l
    by_cases h : l ∈ S
    · simp only [h, if_true, Finset.mem_singleton]
      exact (hu j hj.1 l _ ⟨ht l h, hj.2 l h⟩).symm
    · simp only [h, if_false]
      exact (hf j hj.1 l).1
  · intro j hj j' hj' hff
    rw [Finset.mem_filter] at hj hj'
    obtain ⟨x, -, hx⟩ := I.choice hJ P (f j) (fun l => (hf j hj.1 l).1)
    rw [hx j ⟨hj.1, fun l => (hf j hj.1 l).2⟩, hx j' ⟨hj'.1, fun l => by
      have := (hf j' hj'.1 l).2
      rwa [show f j' = f j from hff.symm] at this⟩]
  · intro s hs
    rw [Fintype.mem_piFinset] at hs
    have hs' : ∀ l, s l ∈ idx args[l].shape := by
      intro l
      have := hs l
      by_cases h : l ∈ S
      · simp only [h, if_true, Finset.mem_singleton] at this
        rw [this]; exact ht l h
      · simpa only [h, if_false] using this
    obtain ⟨j, ⟨h1, h2⟩, -⟩ := I.choice hJ P s hs'
    refine ⟨j, ?_, ?_⟩
    · rw [Finset.mem_filter]
      refine ⟨h1, fun l hl => ?_⟩
      have := hs l
      simp only [hl, if_true, Finset.mem_singleton] at this
      rw [← this]; exact h2 l
    · funext l
      exact (hu j h1 l _ ⟨hs' l, h2 l⟩).symm
  · intro j hj
    rw [Finset.mem_filter] at hj
    exact P.entry_fin hj.1 (f j) (hf j hj.1)

/-- The probability of the variables of some of the factors. -/
theorem Spec.Independent.massGiven (I : Spec.Independent fmt args) (hJ : J.WF fmt)
    (P : Spec.Product args J) (S : Finset (Fin args.length)) {keys : List Str}
    (hkeys : ∀ k, k ∈ keys ↔ ∃ l ∈ S, k ∈ args[l].marg.keys) {i : List ℕ} (hi : i ∈ idx J.shape)
    (t : Fin args.length → List ℕ)
    (ht : ∀ l ∈ S, t l ∈ idx args[l].shape ∧ Spec.Agree args[l] J (t l) i) :
    Spec.massGiven J keys i = (∏ l ∈ S, args[l].at (t l)) * ∏ l ∈ Sᶜ, Spec.mass args[l] := by
  classical
  have := I.sum hJ P S t (fun l hl => (ht l hl).1)
  rw [Finset.prod_ite] at this
  have e1 : Finset.univ.filter (fun l => l ∈ S) = S := by ext; simp
  have e2 : Finset.univ.filter (fun l => l ∉ S) = Sᶜ := by ext; simp
  rw [e1, e2] at this
  rw [← this, Spec.massGiven]
  refine Finset.sum_congr ?_ fun _ _ => rfl
  ext j
  simp only [Finset.mem_filter, and_congr_right_iff]
  intro hj
  constructor
  · intro h l hl k b a hb ha
    rw [(ht l hl).2 k b a hb ha]
    exact (h k a ha (Or.inl ((hkeys k).mpr ⟨l, hl, (I.axis' hJ P hb).1⟩))).symm
  · rintro h k a ha (hk | hk)
    · obtain ⟨l, hl, hkl⟩ := (hkeys k).mp hk
      obtain ⟨m, b, hm, hb⟩ := I.axis hJ P ha
      obtain rfl := I.one hkl hm
      rw [← h l hl k b a hb ha, (ht l hl).2 k b a hb ha]
    · rw [I.cond P] at hk
      simp [Dict.keys] at hk

end Probayes
