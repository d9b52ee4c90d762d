/-
C96: variables taken independently stay independent: the joint distribution has the variables'
own distributions as marginals, and conditioning on some leaves the others as they were.
-/
import Verif.Lemmas.Independent
import Verif.Props.RFCall

namespace Probayes

variable {fmt : Val → Str} {args : List PD} {J : PD}

theorem Spec.Independent.factors (I : Spec.Independent fmt args) (htwo : 2 ≤ args.length)
    (hne : ∀ a ∈ args, a.marg ≠ []) : Spec.Factors fmt args ∧ Spec.Plainly args := by
  have hsame : ∀ {a b : PD} {k : Str}, a ∈ args → b ∈ args → k ∈ a.keylist → k ∈ b.keylist → a = b := by
    intro a b k ha hb hka hkb
    obtain ⟨l, hl, rfl⟩ := List.mem_iff_getElem.mp ha
    obtain ⟨m, hm, rfl⟩ := List.mem_iff_getElem.mp hb
    have := I.one (l := ⟨l, hl⟩) (m := ⟨m, hm⟩) ((I.keylist ha k).mp hka) ((I.keylist hb k).mp hkb)
    simp only [Fin.mk.injEq] at this
    subst this; rfl
  refine ⟨⟨htwo, I.wf, I.pos, hne, I.distinct, ?_, ?_, ?_⟩, ⟨I.own, ?_, ?_⟩⟩
  · intro a ha b hb k hk
    rw [I.free a ha] at hk; simp [Dict.keys] at hk
  · intro a ha b hb kt hkt
    rw [I.free a ha] at hkt; simp at hkt
  · intro a ha b hb k hka hkb
    rw [hsame ha hb hka hkb]
  · refine List.pairwise_of_forall_mem_list fun a ha b _ k hk => ?_
    rw [I.free a ha] at hk; simp [Dict.keys] at hk
  · rw [List.pairwise_iff_getElem]
    intro l m hl hm hlt k n hv hk
    have hka : k ∈ args[l].keylist := by
      unfold PD.values at hv
      obtain ⟨w, hw, -⟩ := Option.map_eq_some_iff.mp hv
      exact Dict.mem_keys_of_get? hw
    have := I.one (l := ⟨l, hl⟩) (m := ⟨m, hm⟩) ((I.keylist (List.getElem_mem hl) k).mp hka)
      ((I.keylist (List.getElem_mem hm) k).mp hk)
    simp only [Fin.mk.injEq] at this
    omega

theorem Spec.Independent.sizes (I : Spec.Independent fmt args) (hJ : J.WF fmt) (P : Spec.Product args J) :
    J.Pos := by
  intro n hn
  obtain ⟨a, ha⟩ := List.mem_iff_getElem?.mp hn
  have hal : a < J.ndim := by
    rw [← hJ.rank]; exact (List.getElem?_eq_some_iff.mp ha).1
  obtain ⟨k, hk⟩ := hJ.cover a hal
  obtain ⟨l, b, hl, hb⟩ := I.axis hJ P hk
  have hmem : args[l] ∈ args := List.getElem_mem l.2
  rw [size_of_values hJ (I.wf _ hmem) (P.values _ hmem k ((I.keylist hmem k).mpr hl)) hk hb] at ha
  exact I.pos _ hmem n (List.mem_of_getElem? ha)

/-- The marginal of the joint distribution for the variables of some of the distributions. -/
theorem independent_marginal (I : Spec.Independent fmt args) (hJ : J.WF fmt) (P : Spec.Product args J)
    {c : ℝ} (hc : 0 < c) (hs : J.pscale = .lin c) (S : Finset (Fin args.length)) {keys : List Str}
    (hkeys : ∀ k, k ∈ keys ↔ ∃ l ∈ S, k ∈ args[l].marg.keys) (hne : keys ≠ [])
    (harr : ∀ l ∉ S, ∀ k ∈ args[l].marg.keys, (args[l].axis k).isSome) :
    ∃ r, J.marginal fmt keys = .ok r ∧ r.WF fmt ∧ r.pscale = .lin c ∧
      r.marg = (args.flatMap PD.marg).filter (fun kv => kv.1 ∈ keys) ∧ r.cond = [] ∧
      (∀ l ∈ S, ∀ k ∈ args[l].keylist, r.values k = args[l].values k ∧
        (r.axis k).isSome = (args[l].axis k).isSome) ∧
      ∀ j ∈ idx r.shape, ∀ t : Fin args.length → List ℕ,
        (∀ l ∈ S, t l ∈ idx args[l].shape ∧ Spec.Agree args[l] r (t l) j) →
        r.at j = (∏ l ∈ S, args[l].at (t l)) * ∏ l ∈ Sᶜ, Spec.mass args[l] := by
  have hmk : ∀ k, k ∈ J.marg.keys ↔ ∃ l : Fin args.length, k ∈ args[l].marg.keys := by
    intro k
    rw [← I.keys hJ P k, hJ.keys k, I.cond P]
    simp [Dict.keys]
  obtain ⟨r, rest, m1, m2, m3, m4, m5, m6⟩ := C16_marginal_partial fmt J keys hJ (I.sizes hJ P)
    (readable_lin hs hc) P.order P.own
    (fun k hk => by
      obtain ⟨l, -, hl⟩ := (hkeys k).mp hk
      exact (hmk k).mpr ⟨l, hl⟩)
    (fun k hk ha => by
      obtain ⟨l, hl⟩ := (hmk k).mp hk
      by_contra hnot
      have hlS : l ∉ S := fun h => hnot ((hkeys k).mpr ⟨l, h, hl⟩)
      obtain ⟨b, hb⟩ := Option.isSome_iff_exists.mp (harr l hlS k hl)
      obtain ⟨-, a, ha'⟩ := I.axis' hJ P hb
      rw [ha] at ha'; simp at ha')
    (Or.inl hne)
  have hrk : ∀ l ∈ S, ∀ k ∈ args[l].keylist, k ∈ r.keylist := by
    intro l hl k hk
    have hmem : args[l] ∈ args := List.getElem_mem l.2
    have hk' := (I.keylist hmem k).mp hk
    rw [m6, List.mem_filter]
    refine ⟨(I.keys hJ P k).mpr ⟨l, hk'⟩, ?_⟩
    simp [(hkeys k).mpr ⟨l, hl, hk'⟩]
  refine ⟨r, m1, m2, by rw [m3.pscale, hs], by rw [m5, P.marg], by rw [m3.cond, I.cond P], ?_, ?_⟩
  · intro l hl k hk
    have hmem : args[l] ∈ args := List.getElem_mem l.2
    rw [m3.values k (hrk l hl k hk), m3.arrays k (hrk l hl k hk), P.values _ hmem k hk]
    exact ⟨rfl, isSome_of_values hJ (I.wf _ hmem) ((I.keys hJ P k).mpr ⟨l, (I.keylist hmem k).mp hk⟩)
      (P.values _ hmem k hk)⟩
  · intro j hj t ht
    obtain ⟨i, hi, hij⟩ := m3.onto j hj
    rw [m3.entry j hj (by rw [hs]; exact writable_lin _), ← m3.massGiven hJ m2 m4 hij]
    refine I.massGiven hJ P S hkeys hi t fun l hl => ⟨(ht l hl).1, ?_⟩
    intro k b a hb ha
    have hk : k ∈ args[l].keylist :=
      (I.wf _ (List.getElem_mem l.2)).dimKeys k (Dict.mem_keys_of_get? (join_eq_some.mp hb))
    have hsome := m3.arrays k (hrk l hl k hk)
    rw [ha] at hsome
    obtain ⟨e, he⟩ := Option.isSome_iff_exists.mp hsome
    rw [(ht l hl).2 k b e hb he, hij k a e ha he]

theorem filter_flatMap_marg (I : Spec.Independent fmt args) (m : Fin args.length) :
    (args.flatMap PD.marg).filter (fun kv => kv.1 ∈ args[m].marg.keys) = args[m].marg := by
  have key : ∀ (n : ℕ) (L : List PD), (∀ l (hl : l < L.length), (hl' : n + l < args.length) →
      L[l] = args[n + l]) → n + L.length = args.length →
      (L.flatMap PD.marg).filter (fun kv => kv.1 ∈ args[m].marg.keys) =
        if n ≤ m.1 then args[m].marg else [] := by
    intro n L
    induction L generalizing n with
    | nil =>
      intro _ hlen
      have := m.2
      simp only [List.length_nil] at hlen
      rw [if_neg (by omega)]; rfl
    | cons b L ih =>
      intro hL hlen
      simp only [List.length_cons] at hlen
      have hb : b = args[n]'(by omega) := hL 0 (by simp) (by omega)
      rw [List.flatMap_cons, List.filter_append, ih (n + 1) (by
        intro l hl hl'
        have := hL (l + 1) (by simp [hl]) (by omega)
        simp only [List.getElem_cons_succ] at this
        rw [this]
        congr 1; omega) (by omega)]
      rcases lt_trichotomy n m.1 with hlt | heq | hgt
      · rw [if_pos (by omega), if_pos (by omega), List.filter_eq_nil_iff.mpr, List.nil_append]
        intro kv hkv hmem
        have hmem' : kv.1 ∈ args[m].marg.keys := by simpa using hmem
        have hk : kv.1 ∈ (args[(⟨n, by omega⟩ : Fin args.length)]).marg.keys :=
          List.mem_map.mpr ⟨kv, by rw [hb] at hkv; exact hkv, rfl⟩
        have := I.one hk hmem'
        rw [← this] at hlt
        simp at hlt
      · have : b = args[m] := by rw [hb]; simp only [heq]; rfl
        rw [if_neg (by omega), if_pos (by omega), this, List.append_nil, List.filter_eq_self]
        intro kv hkv
        have hm : kv.1 ∈ args[m].marg.keys := List.mem_map.mpr ⟨kv, hkv, rfl⟩
        simpa using hm
      · rw [if_neg (by omega), if_neg (by omega), List.filter_eq_nil_iff.mpr, List.nil_append]
        intro kv hkv hmem
        have hmem' : kv.1 ∈ args[m].marg.keys := by simpa using hmem
        have hk : kv.1 ∈ (args[(⟨n, by omega⟩ : Fin args.length)]).marg.keys :=
          List.mem_map.mpr ⟨kv, by rw [hb] at hkv; exact hkv, rfl⟩
        have := I.one hk hmem'
        rw [← this] at hgt
        simp at hgt
  have := key 0 args (fun l hl _ => by simp) (by simp)
  rwa [if_pos (Nat.zero_le _)] at this

/-- The joint distribution conditioned on the variables of some of the distributions. -/
theorem independent_conditional (I : Spec.Independent fmt args) (hJ : J.WF fmt) (P : Spec.Product args J)
    {c : ℝ} (hc : 0 < c) (hs : J.pscale = .lin c) (S : Finset (Fin args.length))
    (hS : (∀ l ∈ S, ∀ m ∉ S, l < m) ∨ (∀ l ∈ S, ∀ m ∉ S, m < l)) {keys : List Str} (hnd : keys.Nodup)
    (hkeys : ∀ k, k ∈ keys ↔ ∃ l ∈ S, k ∈ args[l].marg.keys)
    (hrem : ∃ m ∉ S, ∃ k ∈ args[m].marg.keys, (args[m].axis k).isSome)
    (harr : ∀ l ∈ S, ∀ k ∈ args[l].marg.keys, (args[l].axis k).isSome)
    (hpos : ∀ l : Fin args.length, ∀ i ∈ idx args[l].shape, 0 ≤ args[l].at i)
    (hone : ∀ l : Fin args.length, l ∉ S → Spec.mass args[l] = 1)
    (hmass : ∀ t : Fin args.length → List ℕ, (∀ l ∈ S, t l ∈ idx args[l].shape) →
      npz ≤ ∏ l ∈ S, args[l].at (t l)) :
    ∃ r, J.conditionalise fmt keys = .ok r ∧ r.WF fmt ∧ r.pscale = .lin c ∧
      r.marg = (args.flatMap PD.marg).filter (fun kv => kv.1 ∉ keys) ∧
      (∀ kt, kt ∈ r.cond ↔ kt ∈ args.flatMap PD.marg ∧ kt.1 ∈ keys) ∧
      (∀ l : Fin args.length, ∀ k ∈ args[l].keylist, r.values k = args[l].values k ∧
        (r.axis k).isSome = (args[l].axis k).isSome) ∧
      ∀ j ∈ idx r.shape, ∀ t : Fin args.length → List ℕ,
        (∀ l, t l ∈ idx args[l].shape ∧ Spec.Agree args[l] r (t l) j) →
        r.at j = ∏ l ∈ Sᶜ, args[l].at (t l) := by
  have hmk : ∀ k, k ∈ J.marg.keys ↔ ∃ l : Fin args.length, k ∈ args[l].marg.keys := by
    intro k
    rw [← I.keys hJ P k, hJ.keys k, I.cond P]
    simp [Dict.keys]
  have hsub : ∀ k ∈ keys, k ∈ J.marg.keys := by
    intro k hk
    obtain ⟨l, -, hl⟩ := (hkeys k).mp hk
    exact (hmk k).mpr ⟨l, hl⟩
  have hf : ∀ i ∈ idx J.shape, ∃ t : Fin args.length → List ℕ, ∀ l, t l ∈ idx args[l].shape ∧
      Spec.Agree args[l] J (t l) i := by
    intro i hi
    have : ∀ l : Fin args.length, ∃ t, t ∈ idx args[l].shape ∧ Spec.Agree args[l] J t i :=
      fun l => (P.index i hi _ (List.getElem_mem l.2)).exists
    choose t ht using this
    exact ⟨t, ht⟩
  have hgiven : ∀ i ∈ idx J.shape, ∀ t : Fin args.length → List ℕ,
      (∀ l, t l ∈ idx args[l].shape ∧ Spec.Agree args[l] J (t l) i) →
      Spec.massGiven J keys i = ∏ l ∈ S, args[l].at (t l) := by
    intro i hi t ht
    rw [I.massGiven hJ P S hkeys hi t fun l _ => ht l, Finset.prod_eq_one (s := Sᶜ), mul_one]
    intro l hl
    exact hone l (by simpa using hl)
  have hdiv : Spec.Divisible J keys := by
    refine ⟨readable_lin hs hc, ?_, ?_, ?_, ?_⟩
    · intro i hi
      obtain ⟨t, ht⟩ := hf i hi
      rw [P.entry_fin hi t ht]
      exact Finset.prod_nonneg fun l _ => hpos l _ (ht l).1
    · intro i hi
      obtain ⟨t, ht⟩ := hf i hi
      rw [hgiven i hi t ht]
      exact hmass t fun l _ => (ht l).1
    all_goals
      rintro ⟨k, hk, hka⟩
      obtain ⟨l, hl, hkl⟩ := (hkeys k).mp hk
      obtain ⟨b, hb⟩ := Option.isSome_iff_exists.mp (harr l hl k hkl)
      obtain ⟨-, a, ha⟩ := I.axis' hJ P hb
      rw [hka] at ha; simp at ha
  have hremJ : ∃ k ∈ J.marg.keys, k ∉ keys ∧ (J.axis k).isSome := by
    obtain ⟨m, hm, k, hk, hka⟩ := hrem
    obtain ⟨b, hb⟩ := Option.isSome_iff_exists.mp hka
    obtain ⟨-, a, ha⟩ := I.axis' hJ P hb
    refine ⟨k, (hmk k).mpr ⟨m, hk⟩, ?_, by rw [ha]; rfl⟩
    intro hkk
    obtain ⟨l, hl, hkl⟩ := (hkeys k).mp hkk
    exact hm (I.one hk hkl ▸ hl)
  have horder : ∀ {l m : Fin args.length} {k k' : Str} {a b : ℕ}, l < m → k ∈ args[l].marg.keys →
      k' ∈ args[m].marg.keys → J.axis k = some a → J.axis k' = some b → a < b := by
    intro l m k k' a b hlm hk hk' ha hb
    have hp := P.margOrder
    rw [P.marg] at hp
    have e : Dict.keys (args.flatMap PD.marg) = args.flatMap fun a => a.marg.keys := by
      unfold Dict.keys
      rw [List.map_flatMap]
    rw [e, List.pairwise_flatMap, List.pairwise_iff_getElem] at hp
    exact hp.2 l.1 m.1 l.2 m.2 hlm k hk k' hk' a b ha hb
  have hcase : ∃ r, J.conditionalise fmt keys = .ok r ∧ r.WF fmt ∧ Spec.CondForm J keys r ∧
      Spec.CondEntries J keys r := by
    rcases hS with hS | hS
    · refine C17_first_partial hJ (I.sizes hJ P) P.own P.order hnd hsub (I.cond P) ?_ hremJ hdiv
      intro k a k' a' hk hkk hk' ha ha'
      obtain ⟨m, hm⟩ := (hmk k).mp hk
      obtain ⟨l, hl, hkl⟩ := (hkeys k').mp hk'
      exact horder (hS l hl m fun h => hkk ((hkeys k).mpr ⟨m, h, hm⟩)) hkl hm ha' ha
    · refine C17_last_partial hJ (I.sizes hJ P) P.own P.order ?_ hnd hsub ?_ hremJ hdiv
      · intro k a k' a' _ hk'
        rw [I.cond P] at hk'; simp at hk'
      · intro k a k' a' hk hkk hk' ha ha'
        obtain ⟨m, hm⟩ := (hmk k).mp hk
        obtain ⟨l, hl, hkl⟩ := (hkeys k').mp hk'
        exact horder (hS l hl m fun h => hkk ((hkeys k).mpr ⟨m, h, hm⟩)) hm hkl ha ha'
  obtain ⟨r, r1, r2, r3, r4⟩ := hcase
  refine ⟨r, r1, r2, by rw [r3.pscale, hs], by rw [r3.marg, P.marg], ?_, ?_, ?_⟩
  · intro kt
    rw [r3.cond, I.cond P, P.marg]; simp
  · intro l k hk
    have hmem : args[l] ∈ args := List.getElem_mem l.2
    rw [r3.values, r3.arrays, P.values _ hmem k hk]
    exact ⟨rfl, isSome_of_values hJ (I.wf _ hmem) ((I.keys hJ P k).mpr ⟨l, (I.keylist hmem k).mp hk⟩)
      (P.values _ hmem k hk)⟩
  · intro j hj t ht
    obtain ⟨i, ⟨hi, hij⟩, -⟩ := r3.unique' j hj
    have htJ : ∀ l, t l ∈ idx args[l].shape ∧ Spec.Agree args[l] J (t l) i := by
      intro l
      refine ⟨(ht l).1, ?_⟩
      intro k b a hb ha
      have hsome := r3.arrays k
      rw [ha] at hsome
      obtain ⟨e, he⟩ := Option.isSome_iff_exists.mp hsome
      rw [(ht l).2 k b e hb he, hij k a e ha he]
    rw [r4 i hi j hj hij (by rw [hs]; exact writable_lin _), hgiven i hi t htJ, P.entry_fin hi t htJ,
      ← Finset.prod_mul_prod_compl S, mul_div_cancel_left₀]
    exact (lt_of_lt_of_le npz_pos (hmass t fun l _ => (ht l).1)).ne'

/-- C96 for `product`: the marginal of the product of distributions of separate variables, for
the variables of some of them, is the product of these times the masses of the others, with their
variables and values.  Missing: logarithmic scales; scalar variables among those summed out,
which the code refuses (C16). -/
theorem C96_marginal_partial (I : Spec.Independent fmt args) (htwo : 2 ≤ args.length)
    (hne : ∀ a ∈ args, a.marg ≠ []) (hlin : ∀ a ∈ args, ∃ c : ℝ, 0 < c ∧ a.pscale = .lin c)
    (S : Finset (Fin args.length)) {keys : List Str}
    (hkeys : ∀ k, k ∈ keys ↔ ∃ l ∈ S, k ∈ args[l].marg.keys) (hS : keys ≠ [])
    (harr : ∀ l ∉ S, ∀ k ∈ args[l].marg.keys, (args[l].axis k).isSome) :
    ∃ J r, product fmt args = .ok (some J) ∧ J.marginal fmt keys = .ok r ∧ r.WF fmt ∧
      r.marg = (args.flatMap PD.marg).filter (fun kv => kv.1 ∈ keys) ∧ r.cond = [] ∧
      (∀ l ∈ S, ∀ k ∈ args[l].keylist, r.values k = args[l].values k ∧
        (r.axis k).isSome = (args[l].axis k).isSome) ∧
      ∀ j ∈ idx r.shape, ∀ t : Fin args.length → List ℕ,
        (∀ l ∈ S, t l ∈ idx args[l].shape ∧ Spec.Agree args[l] r (t l) j) →
        r.at j = (∏ l ∈ S, args[l].at (t l)) * ∏ l ∈ Sᶜ, Spec.mass args[l] := by
  obtain ⟨F, G⟩ := I.factors htwo hne
  obtain ⟨J, j1, j2, j3, j4⟩ := C19_linear_partial F G (fun a ha => by
    obtain ⟨c, -, h⟩ := hlin a ha
    rw [h]; rfl)
  obtain ⟨r, r1, r2, r3, r4, r5, r6, r7⟩ := independent_marginal I j2 j3 (by
    apply List.prod_pos
    intro x hx
    obtain ⟨a, ha, rfl⟩ := List.mem_map.mp hx
    obtain ⟨c, hc, h⟩ := hlin a ha
    rw [h]; exact hc) j4 S hkeys hS harr
  exact ⟨J, r, j1, r1, r2, r4, r5, r6, r7⟩

/-- C96 for `product`: conditioned on the variables of the first distributions, or of the last,
the joint distribution is the product of the others.  Missing: conditioning on variables between
the others, which the code refuses (`C96_between_raises`), probabilities below the smallest normal
float, logarithmic scales. -/
theorem C96_conditional_partial (I : Spec.Independent fmt args) (htwo : 2 ≤ args.length)
    (hne : ∀ a ∈ args, a.marg ≠ []) (hlin : ∀ a ∈ args, ∃ c : ℝ, 0 < c ∧ a.pscale = .lin c)
    (S : Finset (Fin args.length))
    (hS : (∀ l ∈ S, ∀ m ∉ S, l < m) ∨ (∀ l ∈ S, ∀ m ∉ S, m < l)) {keys : List Str} (hnd : keys.Nodup)
    (hkeys : ∀ k, k ∈ keys ↔ ∃ l ∈ S, k ∈ args[l].marg.keys)
    (hrem : ∃ m ∉ S, ∃ k ∈ args[m].marg.keys, (args[m].axis k).isSome)
    (harr : ∀ l ∈ S, ∀ k ∈ args[l].marg.keys, (args[l].axis k).isSome)
    (hpos : ∀ l : Fin args.length, ∀ i ∈ idx args[l].shape, 0 ≤ args[l].at i)
    (hone : ∀ l : Fin args.length, l ∉ S → Spec.mass args[l] = 1)
    (hmass : ∀ t : Fin args.length → List ℕ, (∀ l ∈ S, t l ∈ idx args[l].shape) →
      npz ≤ ∏ l ∈ S, args[l].at (t l)) :
    ∃ J r, product fmt args = .ok (some J) ∧ J.conditionalise fmt keys = .ok r ∧ r.WF fmt ∧
      r.marg = (args.flatMap PD.marg).filter (fun kv => kv.1 ∉ keys) ∧
      (∀ kt, kt ∈ r.cond ↔ kt ∈ args.flatMap PD.marg ∧ kt.1 ∈ keys) ∧
      (∀ l : Fin args.length, ∀ k ∈ args[l].keylist, r.values k = args[l].values k ∧
        (r.axis k).isSome = (args[l].axis k).isSome) ∧
      ∀ j ∈ idx r.shape, ∀ t : Fin args.length → List ℕ,
        (∀ l, t l ∈ idx args[l].shape ∧ Spec.Agree args[l] r (t l) j) →
        r.at j = ∏ l ∈ Sᶜ, args[l].at (t l) := by
  obtain ⟨F, G⟩ := I.factors htwo hne
  obtain ⟨J, j1, j2, j3, j4⟩ := C19_linear_partial F G (fun a ha => by
    obtain ⟨c, -, h⟩ := hlin a ha
    rw [h]; rfl)
  obtain ⟨r, r1, r2, r3, r4, r5, r6, r7⟩ := independent_conditional I j2 j3 (by
    apply List.prod_pos
    intro x hx
    obtain ⟨a, ha, rfl⟩ := List.mem_map.mp hx
    obtain ⟨c, hc, h⟩ := hlin a ha
    rw [h]; exact hc) j4 S hS hnd hkeys hrem harr hpos hone hmass
  exact ⟨J, r, j1, r1, r2, r4, r5, r6, r7⟩

/-- C96 for one of the distributions: the marginal of the joint distribution for its variables is
this distribution, if the others are normalised. -/
theorem C96_own_partial (I : Spec.Independent fmt args) (htwo : 2 ≤ args.length)
    (hne : ∀ a ∈ args, a.marg ≠ []) (hlin : ∀ a ∈ args, ∃ c : ℝ, 0 < c ∧ a.pscale = .lin c)
    (m : Fin args.length)
    (harr : ∀ l ≠ m, ∀ k ∈ args[l].marg.keys, (args[l].axis k).isSome)
    (hone : ∀ l ≠ m, Spec.mass args[l] = 1) :
    ∃ J r, product fmt args = .ok (some J) ∧ J.marginal fmt args[m].marg.keys = .ok r ∧ r.WF fmt ∧
      r.marg = args[m].marg ∧ r.cond = [] ∧
      (∀ k ∈ args[m].keylist, r.values k = args[m].values k) ∧
      ∀ j ∈ idx r.shape, ∀ i ∈ idx args[m].shape, Spec.Agree args[m] r i j →
        r.at j = args[m].at i := by
  obtain ⟨J, r, h1, h2, h3, h4, h5, h6, h7⟩ := C96_marginal_partial I htwo hne hlin {m}
    (keys := args[m].marg.keys) (by simp)
    (by
      have := hne _ (List.getElem_mem m.2)
      simpa [Dict.keys] using this)
    (fun l hl => harr l (by simpa using hl))
  refine ⟨J, r, h1, h2, h3, by rw [h4, filter_flatMap_marg I m], h5,
    fun k hk => (h6 m (by simp) k hk).1, ?_⟩
  intro j hj i hi hij
  rw [h7 j hj (fun l => if l = m then i else []) (by
    intro l hl
    obtain rfl := Finset.mem_singleton.mp hl
    rw [if_pos rfl]; exact ⟨hi, hij⟩), Finset.prod_singleton, if_pos rfl, Finset.prod_eq_one, mul_one]
  intro l hl
  exact hone l (by simpa using hl)

/-- C96, refusal: with arrays on both sides, variables in between cannot be conditioned on. -/
theorem C96_between_raises (I : Spec.Independent fmt args) (htwo : 2 ≤ args.length)
    (hne : ∀ a ∈ args, a.marg ≠ []) (hlin : ∀ a ∈ args, ∃ c : ℝ, 0 < c ∧ a.pscale = .lin c)
    (S : Finset (Fin args.length)) {l m n : Fin args.length} (hl : l ∉ S) (hm : m ∈ S) (hn : n ∉ S)
    (hlm : l < m) (hmn : m < n) {keys : List Str} (hnd : keys.Nodup)
    (hkeys : ∀ k, k ∈ keys ↔ ∃ l ∈ S, k ∈ args[l].marg.keys)
    (harr : ∀ l : Fin args.length, ∃ k ∈ args[l].marg.keys, (args[l].axis k).isSome) :
    ∃ J, product fmt args = .ok (some J) ∧ Raises (J.conditionalise fmt keys) := by
  obtain ⟨F, G⟩ := I.factors htwo hne
  obtain ⟨J, j1, hJ, P, -⟩ := C19_linear_partial F G (fun a ha => by
    obtain ⟨c, -, h⟩ := hlin a ha
    rw [h]; rfl)
  refine ⟨J, j1, ?_⟩
  have hmk : ∀ k, k ∈ J.marg.keys ↔ ∃ l : Fin args.length, k ∈ args[l].marg.keys := by
    intro k
    rw [← I.keys hJ P k, hJ.keys k, I.cond P]
    simp [Dict.keys]
  have hiff := conditionalise_iff (keys := keys) hJ (I.sizes hJ P) P.own P.order (by
      intro k a k' a' _ hk'
      rw [I.cond P] at hk'; simp at hk') hnd (by
      intro k hk
      obtain ⟨l, -, hl⟩ := (hkeys k).mp hk
      exact (hmk k).mpr ⟨l, hl⟩)
  have horder : ∀ {l m : Fin args.length} {k k' : Str} {a b : ℕ}, l < m → k ∈ args[l].marg.keys →
      k' ∈ args[m].marg.keys → J.axis k = some a → J.axis k' = some b → a < b := by
    intro l m k k' a b hlm hk hk' ha hb
    have hp := P.margOrder
    rw [P.marg] at hp
    have e : Dict.keys (args.flatMap PD.marg) = args.flatMap fun a => a.marg.keys := by
      unfold Dict.keys
      rw [List.map_flatMap]
    rw [e, List.pairwise_flatMap, List.pairwise_iff_getElem] at hp
    exact hp.2 l.1 m.1 l.2 m.2 hlm k hk k' hk' a b ha hb
  have hax : ∀ l : Fin args.length, ∃ k a, k ∈ args[l].marg.keys ∧ J.axis k = some a := by
    intro l
    obtain ⟨k, hk, hka⟩ := harr l
    obtain ⟨b, hb⟩ := Option.isSome_iff_exists.mp hka
    obtain ⟨-, a, ha⟩ := I.axis' hJ P hb
    exact ⟨k, a, hk, ha⟩
  have hout : ∀ {l : Fin args.length} {k}, l ∉ S → k ∈ args[l].marg.keys → k ∉ keys := by
    intro l k hl hk hkk
    obtain ⟨m, hm, hkm⟩ := (hkeys k).mp hkk
    exact hl (I.one hk hkm ▸ hm)
  obtain ⟨kl, al, hkl, hal⟩ := hax l
  obtain ⟨km, am, hkm, ham⟩ := hax m
  obtain ⟨kn, an, hkn, han⟩ := hax n
  have hkm' : km ∈ keys := (hkeys km).mpr ⟨m, hm, hkm⟩
  rcases hr : J.conditionalise fmt keys with e | r
  · exact ⟨e, rfl⟩
  · exfalso
    rcases hiff.mp ⟨r, hr⟩ with h | ⟨-, h | ⟨h, -⟩⟩
    · rw [h km hkm'] at ham; simp at ham
    · have h1 := h kn an km am ((hmk kn).mpr ⟨n, hkn⟩) (hout hn hkn) hkm' han ham
      have h2 := horder hmn hkm hkn ham han
      omega
    · have h1 := h kl al km am ((hmk kl).mpr ⟨l, hkl⟩) (hout hl hkl) hkm' hal ham
      have h2 := horder hlm hkl hkm hal ham
      omega

/-- C96 as intended: conditioned on the variables of any of the distributions, but not all, the
joint distribution is the product of the others. -/
def C96_claim : Prop :=
  ∀ (fmt : Val → Str) (args : List PD) (S : Finset (Fin args.length)) (keys : List Str),
    Spec.Independent fmt args → 2 ≤ args.length → (∀ a ∈ args, a.marg ≠ [] ∧ a.pscale = .lin 1) →
    (∀ l : Fin args.length, ∀ k ∈ args[l].marg.keys, (args[l].axis k).isSome) →
    (∀ l : Fin args.length, (∀ i ∈ idx args[l].shape, 0 < args[l].at i) ∧ Spec.mass args[l] = 1) →
    S.Nonempty → Sᶜ.Nonempty → keys.Nodup →
    (∀ k, k ∈ keys ↔ ∃ l ∈ S, k ∈ args[l].marg.keys) →
    ∃ J r, product fmt args = .ok (some J) ∧ J.conditionalise fmt keys = .ok r ∧
      ∀ j ∈ idx r.shape, ∀ t : Fin args.length → List ℕ,
        (∀ l, t l ∈ idx args[l].shape ∧ Spec.Agree args[l] r (t l) j) →
        r.at j = ∏ l ∈ Sᶜ, args[l].at (t l)

/-! ### Fields of variables -/

theorem Spec.Calls.independent {vs : List Drawn} {values : Dict Str Req} {ds : List PD}
    (C : Spec.Calls fmt vs values ds) : Spec.Independent fmt ds ∧
      (ds.map fun d => d.marg.keys) = vs.map (fun v => [v.name]) := by
  have h : List.Forall₂ (fun (v : Drawn) (d : PD) => d.WF fmt ∧ d.cond = [] ∧ d.marg.keys = [v.name] ∧
      d.keylist = [v.name]) vs ds := by
    have hg := C.good
    refine List.Forall₂.imp ?_ (List.forall₂_iff_get.mpr ⟨C.calls.length_eq, fun n h1 h2 => ?_⟩ :
      List.Forall₂ (fun (v : Drawn) d => v ∈ vs ∧
        v.var.call fmt (Spec.request values v.name) v.r v.perm = .ok d) vs ds)
    · rintro v d ⟨hv, hc⟩
      obtain ⟨p, rfl, rfl, hp⟩ := call_inv (hg v hv) hc
      exact ⟨hp.wf, hp.cond, by rw [hp.marg]; rfl, hp.keylist⟩
    · exact ⟨List.get_mem _ _, (List.forall₂_iff_get.mp C.calls).2 n h1 h2⟩
  have hmem : ∀ d ∈ ds, ∃ v : Drawn, d.WF fmt ∧ d.cond = [] ∧ d.marg.keys = [v.name] ∧
      d.keylist = [v.name] := by
    intro d hd
    obtain ⟨n, hn, rfl⟩ := List.mem_iff_getElem.mp hd
    have := (List.forall₂_iff_get.mp h).2 n (by rw [h.length_eq]; exact hn) hn
    exact ⟨_, this⟩
  have hkeys : (ds.map fun d => d.marg.keys) = vs.map (fun v => [v.name]) := by
    clear hmem C
    induction h with
    | nil => rfl
    | cons hd _ ih => rw [List.map_cons, List.map_cons, ih, hd.2.2.1]
  refine ⟨⟨fun d hd => ?_, C.pos, ?_, fun d hd => ?_, ?_⟩, hkeys⟩
  · obtain ⟨v, h1, -⟩ := hmem d hd
    exact h1
  · intro d hd k k' a ha ha'
    obtain ⟨v, h1, -, -, h4⟩ := hmem d hd
    have e1 : k ∈ d.keylist := h1.dimKeys k (Dict.mem_keys_of_get? (join_eq_some.mp ha))
    have e2 : k' ∈ d.keylist := h1.dimKeys k' (Dict.mem_keys_of_get? (join_eq_some.mp ha'))
    rw [h4] at e1 e2
    simp only [List.mem_singleton] at e1 e2
    rw [e1, e2]
  · obtain ⟨v, -, h2, -⟩ := hmem d hd
    exact h2
  · rw [List.flatMap_def, hkeys, ← List.flatMap_def]
    have : (vs.flatMap fun v => [v.name]) = vs.map Drawn.name := by
      clear C h hmem hkeys
      induction vs with
      | nil => rfl
      | cons v vs ih => rw [List.flatMap_cons, ih]; rfl
    rw [this]; exact C.nodup

/-- C96 for a call of a field of independent variables: the marginal for one of its variables is
what the variable gives when called alone with its part of the request, if the others' calls cover
all their probability and have an array of values. -/
theorem C96_field_partial {vs : List Drawn} {values : Dict Str Req} {ds : List PD}
    (C : Spec.Calls fmt vs values ds) (hlin : ∀ d ∈ ds, ∃ c : ℝ, 0 < c ∧ d.pscale = .lin c)
    (m : ℕ) (hm : m < vs.length) (hm' : m < ds.length)
    (harr : ∀ l (hl : l < ds.length), l ≠ m → ds[l].shape ≠ [])
    (hone : ∀ l (hl : l < ds.length), l ≠ m → Spec.mass ds[l] = 1) :
    ∃ J r, rfCall fmt vs values = .ok J ∧ J.marginal fmt [vs[m].name] = .ok r ∧ r.WF fmt ∧
      r.marg = ds[m].marg ∧ r.cond = [] ∧ r.values vs[m].name = ds[m].values vs[m].name ∧
      ∀ j ∈ idx r.shape, ∀ i ∈ idx ds[m].shape, Spec.Agree ds[m] r i j → r.at j = ds[m].at i := by
  obtain ⟨I, hk⟩ := C.independent
  obtain ⟨J, j1, hJ, P, j4⟩ := C63_linear_partial C (fun a ha => by
    obtain ⟨c, -, h⟩ := hlin a ha
    rw [h]; rfl)
  have hkl : ∀ l (hl : l < ds.length) (hl' : l < vs.length), ds[l].marg.keys = [vs[l].name] := by
    intro l hl hl'
    have := congrArg (·[l]?) hk
    simpa [List.getElem?_eq_getElem, hl, hl'] using this
  obtain ⟨r, r1, r2, -, r4, r5, r6, r7⟩ := independent_marginal I hJ P (by
    apply List.prod_pos
    intro x hx
    obtain ⟨a, ha, rfl⟩ := List.mem_map.mp hx
    obtain ⟨c, hc, h⟩ := hlin a ha
    rw [h]; exact hc) j4 {⟨m, hm'⟩} (keys := [vs[m].name]) (by
      intro k
      simp only [Finset.mem_singleton, exists_eq_left]
      show _ ↔ k ∈ ds[m].marg.keys
      rw [hkl m hm' hm]) (by simp) (by
      intro l hl k hk
      have hlm : l.1 ≠ m := fun h => hl (by simp [← h])
      have hsh := harr l.1 l.2 hlm
      have hwf : ds[l].WF fmt := I.wf _ (List.getElem_mem l.2)
      have hlv : l.1 < vs.length := by
        rw [C.calls.length_eq]; exact l.2
      have hpos : 0 < ds[l].ndim := by
        rw [← hwf.rank]; exact List.length_pos_iff.mpr hsh
      obtain ⟨k', hk'⟩ := hwf.cover 0 hpos
      have hk2 : k' ∈ ds[l].marg.keys :=
        (I.keylist (List.getElem_mem l.2) k').mp (hwf.dimKeys k' (Dict.mem_keys_of_get? (join_eq_some.mp hk')))
      have e := hkl l.1 l.2 hlv
      change ds[l].marg.keys = _ at e
      rw [e, List.mem_singleton] at hk hk2
      rw [hk, ← hk2, hk']; rfl)
  refine ⟨J, r, j1, r1, r2, ?_, r5, ?_, ?_⟩
  · rw [r4]
    have := filter_flatMap_marg I ⟨m, hm'⟩
    have e := hkl m hm' hm
    change Dict.keys (ds[(⟨m, hm'⟩ : Fin ds.length)]).marg = _ at e
    rw [e] at this
    exact this
  · refine (r6 ⟨m, hm'⟩ (by simp) vs[m].name ?_).1
    refine (I.keylist (List.getElem_mem hm') _).mpr ?_
    rw [hkl m hm' hm]; simp
  · intro j hj i hi hij
    rw [r7 j hj (fun l => if l = ⟨m, hm'⟩ then i else []) (by
      intro l hl
      obtain rfl := Finset.mem_singleton.mp hl
      rw [if_pos rfl]; exact ⟨hi, hij⟩), Finset.prod_singleton, if_pos rfl, Finset.prod_eq_one, mul_one]
    · rfl
    · intro l hl
      exact hone l.1 l.2 (fun h => by
        have : l ≠ ⟨m, hm'⟩ := by simpa using hl
        exact this (Fin.ext h))

/-! ### Coins -/

/-- A coin landing on 1 with probability `p`. -/
noncomputable def coinPD (n : Char) (p : ℝ) : PD :=
  ⟨[n], [([n], [n])], [], ⟨[([n], .arr [2] [0, 1])], [([n], some 0)], 1, [2], [2], 2, [false], false⟩,
   ⟨[2], fun i => if i = [0] then 1 - p else p⟩, .lin 1⟩

theorem coinPD_mass (n : Char) (p : ℝ) : Spec.mass (coinPD n p) = 1 := by
  have e : idx (coinPD n p).shape = {[0], [1]} := by
    show idx [2] = _
    decide
  rw [Spec.mass, e, Finset.sum_pair (by decide)]
  simp [coinPD, PD.at, Spec.value]

theorem coinPD_pos (n : Char) {p : ℝ} (h0 : 0 < p) (h1 : p < 1) :
    ∀ i ∈ idx (coinPD n p).shape, 0 < (coinPD n p).at i := by
  intro i _
  simp only [coinPD, PD.at, Spec.value]
  split <;> linarith

theorem coinPD_wf (n : Char) (p : ℝ) (hn : (coinPD n p).check (fun _ => ['1']) = true) :
    (coinPD n p).WF (fun _ => ['1']) :=
  PD.wf_of_check hn rfl (by simp [coinPD, PScale.spec, evalPscale])

theorem coins_independent (p q s : ℝ) :
    Spec.Independent (fun _ => ['1']) [coinPD 'a' p, coinPD 'b' q, coinPD 'c' s] := by
  have hwf : ∀ a ∈ [coinPD 'a' p, coinPD 'b' q, coinPD 'c' s], a.WF (fun _ => ['1']) := by
    simp only [List.mem_cons, List.not_mem_nil, or_false]
    rintro a (rfl | rfl | rfl)
    · exact coinPD_wf _ _ rfl
    · exact coinPD_wf _ _ rfl
    · exact coinPD_wf _ _ rfl
  refine ⟨hwf, ?_, ?_, ?_, of_decide_eq_true rfl⟩
  · simp only [List.mem_cons, List.not_mem_nil, or_false]
    rintro a (rfl | rfl | rfl) <;> (show ∀ n ∈ [2], 0 < n; decide)
  · intro a ha
    have h := hwf a ha
    simp only [List.mem_cons, List.not_mem_nil, or_false] at ha
    rcases ha with rfl | rfl | rfl <;> exact own_of_check h (of_decide_eq_true rfl)
  · simp only [List.mem_cons, List.not_mem_nil, or_false]
    rintro a (rfl | rfl | rfl) <;> rfl

theorem coins_arrays (p q s : ℝ) (l : Fin [coinPD 'a' p, coinPD 'b' q, coinPD 'c' s].length) :
    ([coinPD 'a' p, coinPD 'b' q, coinPD 'c' s][l]).marg.keys ≠ [] ∧
    ∀ k ∈ ([coinPD 'a' p, coinPD 'b' q, coinPD 'c' s][l]).marg.keys,
      (([coinPD 'a' p, coinPD 'b' q, coinPD 'c' s][l]).axis k).isSome := by
  change Fin 3 at l
  fin_cases l <;> exact of_decide_eq_true rfl

theorem coins_lin (p q s : ℝ) : ∀ a ∈ [coinPD 'a' p, coinPD 'b' q, coinPD 'c' s],
    a.marg ≠ [] ∧ a.pscale = .lin 1 := by
  simp only [List.mem_cons, List.not_mem_nil, or_false]
  rintro a (rfl | rfl | rfl) <;> simp [coinPD]

theorem coins_law {p q s : ℝ} (hp : 0 < p ∧ p < 1) (hq : 0 < q ∧ q < 1) (hs : 0 < s ∧ s < 1)
    (l : Fin [coinPD 'a' p, coinPD 'b' q, coinPD 'c' s].length) :
    (∀ i ∈ idx ([coinPD 'a' p, coinPD 'b' q, coinPD 'c' s][l]).shape,
      0 < ([coinPD 'a' p, coinPD 'b' q, coinPD 'c' s][l]).at i) ∧
    Spec.mass ([coinPD 'a' p, coinPD 'b' q, coinPD 'c' s][l]) = 1 := by
  change Fin 3 at l
  fin_cases l
  · exact ⟨coinPD_pos _ hp.1 hp.2, coinPD_mass _ _⟩
  · exact ⟨coinPD_pos _ hq.1 hq.2, coinPD_mass _ _⟩
  · exact ⟨coinPD_pos _ hs.1 hs.2, coinPD_mass _ _⟩

theorem half_law : (0 : ℝ) < 1 / 2 ∧ (1 / 2 : ℝ) < 1 := by norm_num

/-- C96 as intended does not hold: of three coins, the second cannot be conditioned on. -/
theorem C96_claim_fails : ¬ C96_claim := by
  intro h
  have hk : ∀ k, k ∈ [['b']] ↔ ∃ l ∈ ({(1 : Fin 3)} : Finset (Fin 3)),
      k ∈ ([coinPD 'a' (1 / 2), coinPD 'b' (1 / 2), coinPD 'c' (1 / 2)][l]).marg.keys := by
    intro k
    simp only [Finset.mem_singleton, exists_eq_left]
    rfl
  obtain ⟨J, r, h1, h2, -⟩ := h (fun _ => ['1'])
    [coinPD 'a' (1 / 2), coinPD 'b' (1 / 2), coinPD 'c' (1 / 2)] ({(1 : Fin 3)} : Finset (Fin 3)) [['b']]
    (coins_independent (1 / 2) (1 / 2) (1 / 2)) (by simp) (coins_lin _ _ _)
    (fun l => (coins_arrays _ _ _ l).2) (coins_law half_law half_law half_law) ⟨(1 : Fin 3), by decide⟩
    ⟨(0 : Fin 3), by decide⟩ (by simp) hk
  obtain ⟨J', h3, e, h4⟩ := C96_between_raises (coins_independent (1 / 2) (1 / 2) (1 / 2)) (by simp)
    (fun a ha => (coins_lin _ _ _ a ha).1) (fun a ha => ⟨1, one_pos, (coins_lin _ _ _ a ha).2⟩)
    ({(1 : Fin 3)} : Finset (Fin 3)) (l := (0 : Fin 3)) (m := (1 : Fin 3)) (n := (2 : Fin 3))
    (by decide) (by decide) (by decide) (by decide) (by decide) (keys := [['b']]) (by simp) hk (by
      intro l
      obtain ⟨e1, e2⟩ := coins_arrays (1 / 2) (1 / 2) (1 / 2) l
      obtain ⟨k, hk⟩ := List.exists_mem_of_ne_nil _ e1
      exact ⟨k, hk, e2 k hk⟩)
  rw [h1] at h3
  obtain rfl := Option.some.inj (Except.ok.inj h3)
  rw [h2] at h4
  cases h4

/-- Non-vacuity of `C96_own_partial` (and `C96_marginal_partial`): each of three coins. -/
example (p q s : ℝ) (hp : 0 < p ∧ p < 1) (hq : 0 < q ∧ q < 1) (hs : 0 < s ∧ s < 1) (m : Fin 3) :
    ∃ J r, product (fun _ => ['1']) [coinPD 'a' p, coinPD 'b' q, coinPD 'c' s] = .ok (some J) ∧
      J.marginal (fun _ => ['1']) ([coinPD 'a' p, coinPD 'b' q, coinPD 'c' s][m]).marg.keys = .ok r ∧
      r.marg = ([coinPD 'a' p, coinPD 'b' q, coinPD 'c' s][m]).marg := by
  obtain ⟨J, r, h1, h2, -, h3, -⟩ := C96_own_partial (coins_independent p q s) (by simp)
    (fun a ha => (coins_lin _ _ _ a ha).1) (fun a ha => ⟨1, one_pos, (coins_lin _ _ _ a ha).2⟩) m
    (fun l _ => (coins_arrays p q s l).2) (fun l _ => (coins_law hp hq hs l).2)
  exact ⟨J, r, h1, h2, h3⟩

/-- Non-vacuity of `C96_conditional_partial`: three coins given the first. -/
example : ∃ J r, product (fun _ => ['1']) [coinPD 'a' (1 / 3), coinPD 'b' (1 / 2), coinPD 'c' (1 / 2)] =
      .ok (some J) ∧ J.conditionalise (fun _ => ['1']) [['a']] = .ok r := by
  have hl : (0 : ℝ) < 1 / 3 ∧ (1 / 3 : ℝ) < 1 := by norm_num
  obtain ⟨J, r, h1, h2, -⟩ := C96_conditional_partial (coins_independent (1 / 3) (1 / 2) (1 / 2)) (by simp)
    (fun a ha => (coins_lin _ _ _ a ha).1) (fun a ha => ⟨1, one_pos, (coins_lin _ _ _ a ha).2⟩)
    ({(0 : Fin 3)} : Finset (Fin 3)) (Or.inl (by
      intro l hl m hm
      change Fin 3 at l m
      have e : l = 0 := by simpa using hl
      have e' : m ≠ 0 := by simpa using hm
      rw [e]; exact Fin.pos_iff_ne_zero.mpr e')) (keys := [['a']]) (by simp)
    (by
      intro k
      simp only [Finset.mem_singleton, exists_eq_left]
      rfl)
    ⟨(1 : Fin 3), by decide, ['b'], of_decide_eq_true rfl, rfl⟩
    (fun l _ => (coins_arrays _ _ _ l).2)
    (fun l i hi => ((coins_law hl half_law half_law l).1 i hi).le)
    (fun l _ => (coins_law hl half_law half_law l).2)
    (by
      intro t ht
      rw [Finset.prod_singleton]
      show npz ≤ (coinPD 'a' (1 / 3)).at _
      have h3 : npz ≤ 1 / 3 := by unfold npz; norm_num
      simp only [coinPD, PD.at, Spec.value]
      split <;> linarith)
  exact ⟨J, r, h1, h2⟩

/-- Non-vacuity of `C96_field_partial`: two dice, of which the second is asked for two values. -/
example : ∃ ds J r, Spec.Calls (fun _ => ['v']) [⟨die, 0, []⟩, ⟨dieY, 0, []⟩] [(['y'], .array [2, 5])] ds ∧
    rfCall (fun _ => ['v']) [⟨die, 0, []⟩, ⟨dieY, 0, []⟩] [(['y'], .array [2, 5])] = .ok J ∧
    J.marginal (fun _ => ['v']) [['y']] = .ok r := by
  obtain ⟨ds, C, hds⟩ := calls_exist (fmt := fun _ => ['v'])
    (vs := [⟨die, 0, []⟩, ⟨dieY, 0, []⟩]) (values := [(['y'], .array [2, 5])]) (by simp)
    (by
      intro v hv
      simp only [List.mem_cons, List.not_mem_nil, or_false] at hv
      rcases hv with rfl | rfl
      · exact die_named _ rfl
      · exact dieY_named _ rfl)
    (by show ([['x'], ['y']] : List Str).Nodup; decide) (by simp [Dict.keys])
    (by show ∀ k ∈ ([['y']] : List Str), k ∈ ([['x'], ['y']] : List Str); decide)
    (by
      intro v hv
      simp only [List.mem_cons, List.not_mem_nil, or_false] at hv
      rcases hv with rfl | rfl
      · exact ⟨1 / 3, .lin 1, .array [1, 2, 3], rfl, by simp [die, evalPscale],
          rfl, by simp [VArg.sizes]⟩
      · exact ⟨1 / 3, .lin 1, .array [2, 5], rfl, by simp [dieY, evalPscale],
          rfl, by simp [VArg.sizes]⟩)
  rcases hds with _ | ⟨h1, hds⟩
  rename_i d1 _
  rcases hds with _ | ⟨h2, hds⟩
  rename_i d2 _
  cases hds
  obtain ⟨p, b, x, hp, hb, hx, hsh, _, e, _, hpr⟩ := h1
  obtain ⟨p', b', x', _, hb', _, _, _, e', _⟩ := h2
  have hb1 : b = .lin 1 := by simpa [die, evalPscale] using hb.symm
  have hb2 : b' = .lin 1 := by simpa [dieY, evalPscale] using hb'.symm
  have hx1 : VArg.array [1, 2, 3] = x := Except.ok.inj hx
  have hp1 : (1 / 3 : ℝ) = p := by simpa [die] using hp
  subst hb1 hb2 hx1 hp1
  have hmass : Spec.mass d1 = 1 := by
    have hm : ∀ n, n < 3 → d1.at [n] = 1 / 3 := by
      intro n hn
      have hent : (VArg.array ([1, 2, 3] : List ℚ)).entry [n] = some ([1, 2, 3] : List ℚ)[n] := by
        simp only [VArg.entry]; rw [List.getElem?_eq_getElem]
      have hin : ([1, 2, 3] : List ℚ)[n] ∈ die.vset := List.getElem_mem (l := ([1, 2, 3] : List ℚ)) hn
      rw [PD.at, e, hpr _ _ hent, if_pos hin]
      simp [Spec.value]
    have hidx : idx d1.shape = {[0], [1], [2]} := by
      rw [hsh]
      show idx [3] = _
      decide
    rw [Spec.mass, hidx, Finset.sum_insert (by decide), Finset.sum_pair (by decide), hm 0 (by norm_num),
      hm 1 (by norm_num), hm 2 (by norm_num)]
    norm_num
  obtain ⟨J, r, g1, g2, -⟩ := C96_field_partial C (by
      simp only [List.mem_cons, List.not_mem_nil, or_false]
      rintro d (rfl | rfl)
      · exact ⟨1, one_pos, e⟩
      · exact ⟨1, one_pos, e'⟩) 1 (by simp) (by simp)
    (by
      intro l hl hl1
      have : l = 0 := by simp only [List.length_cons, List.length_nil] at hl; omega
      subst this
      show d1.shape ≠ []
      rw [hsh]; simp [VArg.sizes])
    (by
      intro l hl hl1
      have : l = 0 := by simp only [List.length_cons, List.length_nil] at hl; omega
      subst this
      exact hmass)
  exact ⟨_, J, r, C, g1, g2⟩

end Probayes
