/-
Property C41: evaluating a field assigns axes consistently.
-/
import Verif.Model.Field
import Mathlib.Data.List.Nodup
import Mathlib.Data.List.Perm.Basic
import Mathlib.Tactic.Linarith

namespace Probayes

/-! ### Specification -/

/-- The variables a variable is given jointly with (itself included). -/
def Spec.groupOf (es : FEntries) (k : Str) : List Str :=
  match es.find? (fun e => k ∈ e.1) with
  | some e => e.1
  | none => []

/-- The value given for a variable. -/
def Spec.valueOf (es : FEntries) (k : Str) : FSpec :=
  match es.find? (fun e => k ∈ e.1) with
  | some e => e.2.getD (e.1.idxOf k) .none
  | none => .none

/-- Every variable is given exactly once, with as many values as variables in
each entry. -/
def Spec.WellGiven (ks : List Str) (es : FEntries) : Prop :=
  (es.map Prod.fst).flatten.Perm ks ∧ ∀ e ∈ es, e.1.length = e.2.length

/-- The position, in key order, of the first variable of a group. -/
def Spec.leaderPos (ks g : List Str) : ℕ := ks.findIdx (· ∈ g)

/-- The axis of a key, if any. -/
def Spec.axis (dims : Dict Str (Option ℕ)) (k : Str) : Option ℕ := (dims.get? k).join

/-- Consistent axes: exactly the scalars have none; variables given jointly share
theirs; different groups have different axes, in the order in which the groups
first occur among the keys; and no axis is left out. -/
structure Spec.ConsistentAxes (ks : List Str) (es : FEntries) (scalar : Str → Bool)
    (dims : Dict Str (Option ℕ)) : Prop where
  scalars : ∀ k ∈ ks, Spec.axis dims k = none ↔ scalar k = true
  shared : ∀ k ∈ ks, ∀ k' ∈ ks, scalar k = false → scalar k' = false →
    Spec.groupOf es k = Spec.groupOf es k' → Spec.axis dims k = Spec.axis dims k'
  ordered : ∀ k ∈ ks, ∀ k' ∈ ks, ∀ a a', Spec.axis dims k = some a → Spec.axis dims k' = some a' →
    Spec.leaderPos ks (Spec.groupOf es k) < Spec.leaderPos ks (Spec.groupOf es k') → a < a'
  contiguous : ∀ k ∈ ks, ∀ a, Spec.axis dims k = some a → ∀ b < a,
    ∃ k' ∈ ks, Spec.axis dims k' = some b

/-- Whether a variable evaluates to a scalar. -/
def Spec.isScalar (vars : List FVar) (es : FEntries) (k : Str) : Bool :=
  match vars.find? (fun v => v.name = k) with
  | some v => v.eval (Spec.valueOf es k) = .scalar
  | none => false

/-- C41 full claim. -/
def C41_claim : Prop :=
  ∀ (vars : List FVar) (es : FEntries), (vars.map FVar.name).Nodup →
    Spec.WellGiven (vars.map FVar.name) es →
    ∃ dims, fieldDims vars es = .ok dims ∧
      Spec.ConsistentAxes (vars.map FVar.name) es (Spec.isScalar vars es) dims

/-! ### Lookups in well given entries -/

theorem singleSpec_of_notMem (es : FEntries) (k : Str)
    (h : k ∉ (es.map Prod.fst).flatten) : singleSpec es k = none := by
  induction es with
  | nil => rfl
  | cons e es ih =>
      obtain ⟨g, vs⟩ := e
      simp only [List.map_cons, List.flatten_cons, List.mem_append, not_or] at h
      have hg : g ≠ [k] := by rintro rfl; simp at h
      simp only [singleSpec, if_neg hg, ih h.2]

theorem jointRef_of_notMem (es : FEntries) (k : Str)
    (h : k ∉ (es.map Prod.fst).flatten) : jointRef es k = none := by
  induction es with
  | nil => rfl
  | cons e es ih =>
      obtain ⟨g, vs⟩ := e
      simp only [List.map_cons, List.flatten_cons, List.mem_append, not_or] at h
      simp only [jointRef, ih h.2, h.1, and_false, if_false]

theorem lookups (es : FEntries) (k : Str) (hn : (es.map Prod.fst).flatten.Nodup)
    (hlen : ∀ e ∈ es, e.1.length = e.2.length) (hk : k ∈ (es.map Prod.fst).flatten) :
    ∃ g vs v, (g, vs) ∈ es ∧ es.find? (fun e => k ∈ e.1) = some (g, vs) ∧ k ∈ g ∧
      vs[g.idxOf k]? = some v ∧
      ((2 ≤ g.length ∧ jointRef es k = some (g, vs, g.idxOf k) ∧ singleSpec es k = none) ∨
       (g = [k] ∧ jointRef es k = none ∧ singleSpec es k = some v)) := by
  induction es with
  | nil => simp at hk
  | cons e es ih =>
      obtain ⟨g, vs⟩ := e
      simp only [List.map_cons, List.flatten_cons, List.nodup_append] at hn
      simp only [List.map_cons, List.flatten_cons, List.mem_append] at hk
      have hl := hlen (g, vs) (by simp)
      simp only at hl
      by_cases hg : k ∈ g
      · have hnot : k ∉ (es.map Prod.fst).flatten := fun h => hn.2.2 k hg k h rfl
        have hidx : g.idxOf k < vs.length := by rw [← hl]; exact List.idxOf_lt_length_iff.mpr hg
        refine ⟨g, vs, vs[g.idxOf k], by simp, by simp [hg], hg, by simp [hidx], ?_⟩
        by_cases h2 : 2 ≤ g.length
        · left
          have hgk : g ≠ [k] := by rintro rfl; simp at h2
          refine ⟨h2, ?_, ?_⟩
          · simp only [jointRef, jointRef_of_notMem es k hnot, h2, hg, and_self, if_true]
          · simp only [singleSpec, if_neg hgk, singleSpec_of_notMem es k hnot]
        · right
          have hgk : g = [k] := by
            rcases g with _ | ⟨a, _ | ⟨b, g⟩⟩
            · simp at hg
            · simp at hg; rw [hg]
            · simp at h2
          subst hgk
          refine ⟨rfl, ?_, ?_⟩
          · simp [jointRef, jointRef_of_notMem es k hnot]
          · rcases vs with _ | ⟨v, vs⟩
            · simp at hl
            · simp [singleSpec]
      · obtain ⟨g', vs', v, h1, h2, h3, h4, h5⟩ := ih hn.2.1 (fun e he => hlen e (by simp [he]))
          (by rcases hk with h | h; exact absurd h hg; exact h)
        refine ⟨g', vs', v, by simp [h1], by simp [hg, h2], h3, h4, ?_⟩
        have hgk : g ≠ [k] := by rintro rfl; simp at hg
        rcases h5 with ⟨a, b, c⟩ | ⟨a, b, c⟩
        · left
          refine ⟨a, ?_, ?_⟩
          · simp only [jointRef, b]
          · simp only [singleSpec, if_neg hgk, c]
        · right
          refine ⟨a, ?_, ?_⟩
          · simp only [jointRef, b, hg, and_false, if_false]
          · simp only [singleSpec, if_neg hgk, c]

/-- The same entry is found from any of its keys. -/
theorem groupOf_eq_of_mem (es : FEntries) (k k' : Str) (hn : (es.map Prod.fst).flatten.Nodup)
    (h : k' ∈ Spec.groupOf es k) : Spec.groupOf es k' = Spec.groupOf es k := by
  induction es with
  | nil => simp [Spec.groupOf] at h
  | cons e es ih =>
      obtain ⟨g, vs⟩ := e
      simp only [List.map_cons, List.flatten_cons, List.nodup_append] at hn
      unfold Spec.groupOf at h ⊢
      by_cases hk : k ∈ g
      · simp only [List.find?_cons, hk, decide_true] at h
        simp only [List.find?_cons, hk, h, decide_true]
      · simp only [List.find?_cons, hk, decide_false] at h
        have hk' : k' ∉ g := by
          intro hk'
          refine hn.2.2 k' hk' k' ?_ rfl
          rcases hf : es.find? (fun e => k ∈ e.1) with _ | e
          · simp [hf] at h
          · simp only [hf] at h
            exact List.mem_flatten.mpr ⟨e.1, List.mem_map.mpr
              ⟨e, List.mem_of_find?_eq_some hf, rfl⟩, h⟩
        simp only [List.find?_cons, hk, hk', decide_false]
        exact ih hn.2.1 h

theorem setGroup_spec (d : ℕ) (g : List Str) : ∀ (dims : Dict Str (Option ℕ)),
    (∀ k ∈ g, k ∈ dims.keys) →
    (setGroup d g dims).keys = dims.keys ∧
    ∀ k, (setGroup d g dims).get? k = if k ∈ g then some (some d) else dims.get? k := by
  induction g with
  | nil => intro dims _; simp [setGroup]
  | cons a g ih =>
      intro dims h
      have hk : (dims.set a (some d)).keys = dims.keys := by
        rw [Dict.keys_set, if_pos (h a (by simp))]
      obtain ⟨h1, h2⟩ := ih (dims.set a (some d)) (fun k hk' => by rw [hk]; exact h k (by simp [hk']))
      refine ⟨by rw [setGroup, h1, hk], ?_⟩
      intro k
      rw [setGroup, h2 k, Dict.get?_set]
      by_cases hkg : k ∈ g
      · simp [hkg]
      · by_cases hka : a = k
        · subst hka; simp
        · simp [hkg, hka, Ne.symm hka]

/-! ### The loop -/

/-- Invariant after the keys `done`, where `ks = done ++ todo`. -/
structure DimInv (ks : List Str) (es : FEntries) (done : List Str) (s : DimState) : Prop where
  keys : s.dims.keys = ks
  seen : ∀ k ∈ ks, k ∈ s.seen ↔ ∃ k' ∈ done, k' ∈ Spec.groupOf es k
  some_ : ∀ k ∈ ks, k ∈ s.seen → (Spec.valueOf es k).dimless = false →
    ∃ n < s.ndim, s.dims.get? k = some (some n)
  shared : ∀ k ∈ ks, ∀ k' ∈ ks, k ∈ s.seen → k' ∈ s.seen →
    (Spec.valueOf es k).dimless = false → (Spec.valueOf es k').dimless = false →
    Spec.groupOf es k = Spec.groupOf es k' → s.dims.get? k = s.dims.get? k'
  ordered : ∀ k ∈ ks, ∀ k' ∈ ks, k ∈ s.seen → k' ∈ s.seen →
    (Spec.valueOf es k).dimless = false → (Spec.valueOf es k').dimless = false →
    ∀ a a', s.dims.get? k = some (some a) → s.dims.get? k' = some (some a') →
    Spec.leaderPos ks (Spec.groupOf es k) < Spec.leaderPos ks (Spec.groupOf es k') → a < a'
  contiguous : ∀ b < s.ndim, ∃ k ∈ ks, k ∈ s.seen ∧ (Spec.valueOf es k).dimless = false ∧
    s.dims.get? k = some (some b)

/-- The first variable (in key order) of every group is not a scalar unless the
whole group consists of scalars. -/
def Spec.LeadersDimensional (ks : List Str) (es : FEntries) : Prop :=
  ∀ k ∈ ks, ∀ k' ∈ ks, Spec.groupOf es k = Spec.groupOf es k' →
    ks.idxOf k = Spec.leaderPos ks (Spec.groupOf es k) →
    (Spec.valueOf es k).dimless = true → (Spec.valueOf es k').dimless = true

theorem leaderPos_lt (ks done todo : List Str) (hks : ks = done ++ todo) (g : List Str)
    (h : ∃ k' ∈ done, k' ∈ g) : Spec.leaderPos ks g < done.length := by
  obtain ⟨k', h1, h2⟩ := h
  unfold Spec.leaderPos
  rw [hks, List.findIdx_append]
  have : done.findIdx (· ∈ g) < done.length := List.findIdx_lt_length_of_exists ⟨k', h1, by simpa⟩
  simp [this]

theorem leaderPos_eq (ks done todo : List Str) (key : Str) (hks : ks = done ++ key :: todo)
    (g : List Str) (hkey : key ∈ g) (h : ¬ ∃ k' ∈ done, k' ∈ g) :
    Spec.leaderPos ks g = done.length := by
  unfold Spec.leaderPos
  rw [hks, List.findIdx_append]
  have h1 : done.findIdx (· ∈ g) = done.length := by
    rw [List.findIdx_eq_length]
    intro x hx
    simp only [decide_eq_false_iff_not]
    exact fun hg => h ⟨x, hx, hg⟩
  simp [h1, List.findIdx_cons, hkey]

theorem dimStep_inv (ks : List Str) (es : FEntries) (hks : ks.Nodup) (hw : Spec.WellGiven ks es)
    (hlead : Spec.LeadersDimensional ks es) (done todo : List Str) (key : Str)
    (heq : ks = done ++ key :: todo) (s : DimState) (inv : DimInv ks es done s) :
    ∃ s', dimStep es s key = .ok s' ∧ DimInv ks es (done ++ [key]) s' := by
  have hn : (es.map Prod.fst).flatten.Nodup := hw.1.nodup_iff.mpr hks
  have hkey : key ∈ ks := by rw [heq]; simp
  have hall : ∀ k, k ∈ (es.map Prod.fst).flatten ↔ k ∈ ks := fun k => hw.1.mem_iff
  obtain ⟨g, vs, v, hmem, hfind, hkg, hv, hcase⟩ := lookups es key hn hw.2 ((hall key).mpr hkey)
  have hgrp : Spec.groupOf es key = g := by simp [Spec.groupOf, hfind]
  have hval : Spec.valueOf es key = v := by
    simp [Spec.valueOf, hfind, List.getD_eq_getElem?_getD, hv]
  have hgsub : ∀ k ∈ g, k ∈ ks := fun k hk => (hall k).mp
    (List.mem_flatten.mpr ⟨g, List.mem_map.mpr ⟨(g, vs), hmem, rfl⟩, hk⟩)
  -- membership in own group
  have hself : ∀ k ∈ ks, k ∈ Spec.groupOf es k := by
    intro k hk
    obtain ⟨g', vs', v', _, hf, hk', _⟩ := lookups es k hn hw.2 ((hall k).mpr hk)
    simp [Spec.groupOf, hf, hk']
  have hgroup : ∀ k ∈ ks, key ∈ Spec.groupOf es k ↔ k ∈ g := by
    intro k hk
    constructor
    · intro h
      have := groupOf_eq_of_mem es k key hn h
      rw [hgrp] at this; rw [this]; exact hself k hk
    · intro h
      have := groupOf_eq_of_mem es key k hn (by rw [hgrp]; exact h)
      rw [this, hgrp]; exact hkg
  have hgeq : ∀ k ∈ g, Spec.groupOf es k = g := fun k hk => by
    have := groupOf_eq_of_mem es key k hn (by rw [hgrp]; exact hk)
    rw [this, hgrp]
  by_cases hseen : ∃ k' ∈ done, k' ∈ g
  · -- the group has been seen: it must be a joint group
    have hin : key ∈ s.seen := (inv.seen key hkey).mpr (by rw [hgrp]; exact hseen)
    rcases hcase with ⟨h2, hj, hs⟩ | ⟨hsing, hj, hs⟩
    · refine ⟨s, by simp [dimStep, hj, hin], inv.keys, ?_, inv.some_, inv.shared, inv.ordered,
        inv.contiguous⟩
      intro k hk
      rw [inv.seen k hk]
      constructor
      · rintro ⟨k', h1, h2⟩; exact ⟨k', by simp [h1], h2⟩
      · rintro ⟨k', h1, h2⟩
        rcases List.mem_append.mp h1 with h1 | h1
        · exact ⟨k', h1, h2⟩
        · simp only [List.mem_singleton] at h1; subst h1
          have hkg' := (hgroup k hk).mp h2
          rw [hgeq k hkg']; exact hseen
    · exfalso
      obtain ⟨k', h1, h2⟩ := hseen
      rw [hsing] at h2
      simp only [List.mem_singleton] at h2; subst h2
      rw [heq] at hks
      have := (List.nodup_append.mp hks).2.2 k' h1 k' (by simp)
      exact this rfl
  · -- a new group
    have hpos : Spec.leaderPos ks g = done.length := leaderPos_eq ks done todo key heq g hkg hseen
    have hnotseen : ∀ k ∈ g, k ∉ s.seen := by
      intro k hk hks'
      have := (inv.seen k (hgsub k hk)).mp hks'
      rw [hgeq k hk] at this
      exact hseen this
    have hidx : ks.idxOf key = done.length := by
      rw [heq, List.idxOf_append]
      have : key ∉ done := by
        rw [heq] at hks
        intro h
        exact (List.nodup_append.mp hks).2.2 key h key (by simp) rfl
      simp [this]
    have hleadval : v.dimless = true → ∀ k ∈ g, (Spec.valueOf es k).dimless = true := by
      intro hv0 k hk
      refine hlead key hkey k (hgsub k hk) ?_ ?_ (by rw [hval]; exact hv0)
      · rw [hgrp, hgeq k hk]
      · rw [hgrp, hpos, hidx]
    have hoth : ∀ k ∈ ks, k ∈ s.seen → Spec.leaderPos ks (Spec.groupOf es k) < done.length := by
      intro k hk hks'
      exact leaderPos_lt ks done (key :: todo) heq _ ((inv.seen k hk).mp hks')
    have hgk : ∀ k ∈ g, k ∈ s.dims.keys := fun k hk => by rw [inv.keys]; exact hgsub k hk
    obtain ⟨hsk, hsg⟩ := setGroup_spec s.ndim g s.dims hgk
    -- a general lemma: a new state whose dims agree off `g` and give `ndim` on `g`
    have general : ∀ (nd : ℕ) (dims : Dict Str (Option ℕ)) (seen : List Str),
        nd = (if v.dimless then s.ndim else s.ndim + 1) →
        dims.keys = ks →
        (∀ k ∈ ks, k ∈ seen ↔ k ∈ g ∨ k ∈ s.seen) →
        (∀ k, k ∉ g → dims.get? k = s.dims.get? k) →
        (v.dimless = false → ∀ k ∈ g, dims.get? k = some (some s.ndim)) →
        DimInv ks es (done ++ [key]) ⟨nd, dims, seen⟩ := by
      intro nd dims seen hnd hk1 hseen' hoff hon
      have hle : s.ndim ≤ nd := by rw [hnd]; split <;> omega
      have hng : ∀ k ∈ g, (Spec.valueOf es k).dimless = false → v.dimless = false := by
        intro k hk hd
        by_contra hv0
        rw [Bool.not_eq_false] at hv0
        rw [hleadval hv0 k hk] at hd; cases hd
      refine ⟨hk1, ?_, ?_, ?_, ?_, ?_⟩
      · intro k hk
        simp only
        rw [hseen' k hk, inv.seen k hk]
        constructor
        · rintro (h | ⟨k', h1, h2⟩)
          · exact ⟨key, by simp, (hgroup k hk).mpr h⟩
          · exact ⟨k', by simp [h1], h2⟩
        · rintro ⟨k', h1, h2⟩
          rcases List.mem_append.mp h1 with h1 | h1
          · exact Or.inr ⟨k', h1, h2⟩
          · simp only [List.mem_singleton] at h1; subst h1
            exact Or.inl ((hgroup k hk).mp h2)
      · intro k hk hks' hd
        rcases (hseen' k hk).mp hks' with h | h
        · refine ⟨s.ndim, ?_, hon (hng k h hd) k h⟩
          simp only; rw [hnd, if_neg (by rw [hng k h hd]; simp)]; omega
        · have hkg' : k ∉ g := fun hg => hnotseen k hg h
          obtain ⟨n, hn1, hn2⟩ := inv.some_ k hk h hd
          exact ⟨n, lt_of_lt_of_le hn1 hle, by simp only; rw [hoff k hkg', hn2]⟩
      · intro k hk k' hk' h1 h2 hd hd' hg
        simp only
        rcases (hseen' k hk).mp h1 with ha | ha <;> rcases (hseen' k' hk').mp h2 with hb | hb
        · rw [hon (hng k ha hd) k ha, hon (hng k ha hd) k' hb]
        · exfalso
          rw [hgeq k ha] at hg
          exact hnotseen k' (by rw [hg]; exact hself k' hk') hb
        · exfalso
          rw [hgeq k' hb] at hg
          exact hnotseen k (by rw [← hg]; exact hself k hk) ha
        · rw [hoff k (fun hg => hnotseen k hg ha), hoff k' (fun hg => hnotseen k' hg hb)]
          exact inv.shared k hk k' hk' ha hb hd hd' hg
      · intro k hk k' hk' h1 h2 hd hd' a a' hda hda' hlt
        simp only at hda hda'
        rcases (hseen' k hk).mp h1 with ha | ha <;> rcases (hseen' k' hk').mp h2 with hb | hb
        · rw [hgeq k ha, hgeq k' hb] at hlt; omega
        · rw [hgeq k ha, hpos] at hlt
          have := hoth k' hk' hb; omega
        · rw [hon (hng k' hb hd') k' hb] at hda'
          simp only [Option.some.injEq] at hda'
          obtain ⟨n, hn1, hn2⟩ := inv.some_ k hk ha hd
          rw [hoff k (fun hg => hnotseen k hg ha), hn2] at hda
          simp only [Option.some.injEq] at hda
          omega
        · rw [hoff k (fun hg => hnotseen k hg ha)] at hda
          rw [hoff k' (fun hg => hnotseen k' hg hb)] at hda'
          exact inv.ordered k hk k' hk' ha hb hd hd' a a' hda hda' hlt
      · intro b hb
        simp only at hb
        by_cases hb' : b < s.ndim
        · obtain ⟨k, h1, h2, h3, h4⟩ := inv.contiguous b hb'
          exact ⟨k, h1, (hseen' k h1).mpr (Or.inr h2), h3, by
            simp only; rw [hoff k (fun hg => hnotseen k hg h2), h4]⟩
        · have hv0 : v.dimless = false := by
            by_contra hv0
            rw [Bool.not_eq_false] at hv0
            rw [hnd, if_pos hv0] at hb; omega
          rw [hnd, if_neg (by rw [hv0]; simp)] at hb
          have : b = s.ndim := by omega
          subst this
          exact ⟨key, hkey, (hseen' key hkey).mpr (Or.inl hkg), by rw [hval]; exact hv0,
            hon hv0 key hkg⟩
    rcases hcase with ⟨h2, hj, hs⟩ | ⟨hsing, hj, hs⟩
    · refine ⟨⟨if v.dimless then s.ndim else s.ndim + 1, setGroup s.ndim g s.dims, g ++ s.seen⟩,
        ?_, general _ _ _ rfl (by rw [hsk, inv.keys]) ?_ ?_ ?_⟩
      · simp only [dimStep, hj, if_neg (hnotseen key hkg), hv]
      · intro k _; simp
      · intro k hk; rw [hsg k, if_neg hk]
      · intro _ k hk; rw [hsg k, if_pos hk]
    · by_cases hv0 : v.dimless = true
      · refine ⟨⟨s.ndim, s.dims, key :: s.seen⟩, ?_,
          general _ _ _ (by rw [if_pos hv0]) inv.keys ?_ ?_ ?_⟩
        · simp only [dimStep, hj, hs, hv0, if_true]
        · intro k _; rw [hsing]; simp
        · intro k _; rfl
        · intro h; rw [hv0] at h; cases h
      · refine ⟨⟨s.ndim + 1, s.dims.set key (some s.ndim), key :: s.seen⟩, ?_,
          general _ _ _ (by rw [if_neg hv0]) ?_ ?_ ?_ ?_⟩
        · simp only [dimStep, hj, hs, hv0]; rfl
        · rw [Dict.keys_set, inv.keys, if_pos hkey]
        · intro k _; rw [hsing]; simp
        · intro k hk
          rw [hsing] at hk
          simp only [List.mem_singleton] at hk
          rw [Dict.get?_set, if_neg (Ne.symm hk)]
        · intro _ k hk
          rw [hsing] at hk
          simp only [List.mem_singleton] at hk
          rw [Dict.get?_set, if_pos hk.symm]

theorem dimLoop_inv (ks : List Str) (es : FEntries) (hks : ks.Nodup) (hw : Spec.WellGiven ks es)
    (hlead : Spec.LeadersDimensional ks es) (todo : List Str) : ∀ (done : List Str) (s : DimState),
    ks = done ++ todo → DimInv ks es done s →
    ∃ s', dimLoop es todo s = .ok s' ∧ DimInv ks es ks s' := by
  induction todo with
  | nil =>
      intro done s heq inv
      rw [List.append_nil] at heq
      exact ⟨s, rfl, heq ▸ inv⟩
  | cons key todo ih =>
      intro done s heq inv
      obtain ⟨s1, h1, h2⟩ := dimStep_inv ks es hks hw hlead done todo key heq s inv
      obtain ⟨s2, h3, h4⟩ := ih (done ++ [key]) s1 (by simp [heq]) h2
      exact ⟨s2, by simp only [dimLoop, h1, h3], h4⟩

theorem dropSingletons_spec (es : FEntries) (vars : List FVar)
    (hspec : ∀ v ∈ vars, specOf es v.name = some (Spec.valueOf es v.name)) :
    ∀ (dims : Dict Str (Option ℕ)), (vars.map FVar.name).Nodup →
    (∀ v ∈ vars, v.name ∈ dims.keys) →
    ∃ r, dropSingletons es vars dims = .ok r ∧ r.keys = dims.keys ∧
      (∀ k, k ∉ vars.map FVar.name → r.get? k = dims.get? k) ∧
      ∀ v ∈ vars, r.get? v.name =
        if v.eval (Spec.valueOf es v.name) = .scalar then some none else dims.get? v.name := by
  induction vars with
  | nil => intro dims _ _; exact ⟨dims, rfl, rfl, by simp, by simp⟩
  | cons v vars ih =>
      intro dims hn hk
      simp only [List.map_cons, List.nodup_cons] at hn
      have hs := hspec v (by simp)
      have hvk := hk v (by simp)
      have step : ∀ dims1 : Dict Str (Option ℕ), dims1.keys = dims.keys →
          (∀ k, k ≠ v.name → dims1.get? k = dims.get? k) →
          (dims1.get? v.name = if v.eval (Spec.valueOf es v.name) = .scalar then some none
            else dims.get? v.name) →
          dropSingletons es (v :: vars) dims = dropSingletons es vars dims1 →
          ∃ r, dropSingletons es (v :: vars) dims = .ok r ∧ r.keys = dims.keys ∧
            (∀ k, k ∉ (v :: vars).map FVar.name → r.get? k = dims.get? k) ∧
            ∀ w ∈ v :: vars, r.get? w.name =
              if w.eval (Spec.valueOf es w.name) = .scalar then some none else dims.get? w.name := by
        intro dims1 hk1 hoff hon heq
        obtain ⟨r, h1, h2, h3, h4⟩ := ih (fun w hw => hspec w (by simp [hw])) dims1 hn.2
          (fun w hw => by rw [hk1]; exact hk w (by simp [hw]))
        refine ⟨r, by rw [heq, h1], by rw [h2, hk1], ?_, ?_⟩
        · intro k hk'
          simp only [List.map_cons, List.mem_cons, not_or] at hk'
          rw [h3 k hk'.2, hoff k hk'.1]
        · intro w hw
          rcases List.mem_cons.mp hw with rfl | hw'
          · rw [h3 _ hn.1, hon]
          · have hne : w.name ≠ v.name := by
              intro h; exact hn.1 (h ▸ List.mem_map.mpr ⟨w, hw', rfl⟩)
            rw [h4 w hw', hoff _ hne]
      rcases he : v.eval (Spec.valueOf es v.name) with _ | n
      · refine step (dims.set v.name none) ?_ ?_ ?_ ?_
        · rw [Dict.keys_set, if_pos hvk]
        · intro k hk'; rw [Dict.get?_set, if_neg (Ne.symm hk')]
        · rw [Dict.get?_set, if_pos rfl]; simp [he]
        · simp only [dropSingletons, hs, he]
      · refine step dims rfl (fun _ _ => rfl) (by simp [he]) ?_
        simp only [dropSingletons, hs, he]

/-- No float variable is left to default to a single random value. -/
def Spec.NoFloatNone (vars : List FVar) (es : FEntries) : Prop :=
  ∀ v ∈ vars, v.isFloat = true → Spec.valueOf es v.name ≠ .none

theorem find?_self (vars : List FVar) (hn : (vars.map FVar.name).Nodup) (v : FVar) (hv : v ∈ vars) :
    vars.find? (fun w => w.name = v.name) = some v := by
  induction vars with
  | nil => simp at hv
  | cons w vars ih =>
      simp only [List.map_cons, List.nodup_cons] at hn
      rcases List.mem_cons.mp hv with rfl | hv'
      · simp
      · have : w.name ≠ v.name := by
          intro h; exact hn.1 (h ▸ List.mem_map.mpr ⟨v, hv', rfl⟩)
        simp [this, ih hn.2 hv']

theorem specOf_eq (vars : List FVar) (es : FEntries) (hn : (vars.map FVar.name).Nodup)
    (hw : Spec.WellGiven (vars.map FVar.name) es) :
    ∀ v ∈ vars, specOf es v.name = some (Spec.valueOf es v.name) := by
  intro v hv
  obtain ⟨g, vs, w, hmem, hfind, hkg, hw', hc⟩ := lookups es v.name (hw.1.nodup_iff.mpr hn) hw.2
    (hw.1.mem_iff.mpr (List.mem_map.mpr ⟨v, hv, rfl⟩))
  have hval : Spec.valueOf es v.name = w := by
    simp [Spec.valueOf, hfind, List.getD_eq_getElem?_getD, hw']
  rcases hc with ⟨_, hj, hs'⟩ | ⟨_, hj, hs'⟩
  · simp only [specOf, hs', hj, hw', hval]
  · simp only [specOf, hs', hval]

/-- C41: every variable given once (alone or jointly), in groups led by a
non-scalar unless entirely scalar, and no float variable left unspecified: the
axes are consistent. -/
theorem C41_axes_partial (vars : List FVar) (es : FEntries) (hn : (vars.map FVar.name).Nodup)
    (hw : Spec.WellGiven (vars.map FVar.name) es)
    (hlead : Spec.LeadersDimensional (vars.map FVar.name) es) (hfl : Spec.NoFloatNone vars es) :
    ∃ dims, fieldDims vars es = .ok dims ∧
      Spec.ConsistentAxes (vars.map FVar.name) es (Spec.isScalar vars es) dims := by
  set ks := vars.map FVar.name with hks
  have hn' : (es.map Prod.fst).flatten.Nodup := hw.1.nodup_iff.mpr hn
  have hall : ∀ k, k ∈ (es.map Prod.fst).flatten ↔ k ∈ ks := fun k => hw.1.mem_iff
  have hsc : ∀ v ∈ vars, Spec.isScalar vars es v.name =
      decide (v.eval (Spec.valueOf es v.name) = .scalar) := by
    intro v hv
    unfold Spec.isScalar
    rw [find?_self vars hn v hv]
  have hdim : ∀ v ∈ vars, (v.eval (Spec.valueOf es v.name) = .scalar ↔
      (Spec.valueOf es v.name).dimless = true) := by
    intro v hv
    have := hfl v hv
    rcases hval : Spec.valueOf es v.name with _ | n | _ | k
    · rw [hval] at this
      have hf : v.isFloat = false := by
        by_contra h; rw [Bool.not_eq_false] at h; exact this h rfl
      simp [FVar.eval, hf, FSpec.dimless]
    · by_cases h0 : n = 0 <;> simp [FVar.eval, FSpec.dimless, h0]
    · simp [FVar.eval, FSpec.dimless]
    · simp [FVar.eval, FSpec.dimless]
  unfold fieldDims
  by_cases hs : es.all (fun e => e.1.length = 1 && e.2 == [.scalar]) = true
  · refine ⟨[], if_pos hs, ?_⟩
    have hscalar : ∀ k ∈ ks, Spec.isScalar vars es k = true := by
      intro k hk
      obtain ⟨v, hv, rfl⟩ := List.mem_map.mp hk
      rw [hsc v hv]
      obtain ⟨g, vs, w, hmem, hfind, hkg, hw', _⟩ := lookups es v.name hn' hw.2 ((hall _).mpr hk)
      have hgv := List.all_eq_true.mp hs (g, vs) hmem
      simp only [Bool.and_eq_true, decide_eq_true_eq, beq_iff_eq] at hgv
      have hi : g.idxOf v.name = 0 := by
        have := List.idxOf_lt_length_iff.mpr hkg; omega
      have : Spec.valueOf es v.name = .scalar := by
        simp [Spec.valueOf, hfind, hgv.2, hi]
      simp [this, FVar.eval]
    refine ⟨?_, ?_, ?_, ?_⟩
    · intro k hk; simp [Spec.axis, Dict.get?, hscalar k hk]
    · intro k hk k' hk' _ _ _; rfl
    · intro k hk k' hk' a a' h; simp [Spec.axis, Dict.get?] at h
    · intro k hk a h; simp [Spec.axis, Dict.get?] at h
  · rw [if_neg hs]
    have hkeys0 : Dict.keys (vars.map fun v => (v.name, (none : Option ℕ))) = ks := by
      simp [Dict.keys, hks, Function.comp_def]
    obtain ⟨s, h1, inv⟩ := dimLoop_inv ks es hn hw hlead ks []
      ⟨0, vars.map (fun v => (v.name, none)), []⟩ rfl
      ⟨hkeys0, by simp, by simp, by simp, by simp, by simp⟩
    rw [← hks, h1]
    have hspec := specOf_eq vars es hn hw
    obtain ⟨r, h2, h3, _, h5⟩ := dropSingletons_spec es vars hspec s.dims hn
      (fun v hv => by rw [inv.keys]; exact List.mem_map.mpr ⟨v, hv, rfl⟩)
    have hseen : ∀ k ∈ ks, k ∈ s.seen := by
      intro k hk
      refine (inv.seen k hk).mpr ⟨k, hk, ?_⟩
      obtain ⟨g', vs', v', _, hf, hk', _⟩ := lookups es k hn' hw.2 ((hall k).mpr hk)
      simp [Spec.groupOf, hf, hk']
    have hax : ∀ k ∈ ks, Spec.axis r k = if (Spec.valueOf es k).dimless then none
        else (s.dims.get? k).join := by
      intro k hk
      obtain ⟨v, hv, rfl⟩ := List.mem_map.mp hk
      unfold Spec.axis
      rw [h5 v hv]
      by_cases hd : (Spec.valueOf es v.name).dimless = true
      · rw [if_pos ((hdim v hv).mpr hd), if_pos hd]; rfl
      · rw [if_neg (fun h => hd ((hdim v hv).mp h)), if_neg hd]
    have hsc' : ∀ k ∈ ks, Spec.isScalar vars es k = (Spec.valueOf es k).dimless := by
      intro k hk
      obtain ⟨v, hv, rfl⟩ := List.mem_map.mp hk
      rw [hsc v hv]
      by_cases hd : (Spec.valueOf es v.name).dimless = true
      · rw [hd, decide_eq_true ((hdim v hv).mpr hd)]
      · rw [decide_eq_false (fun h => hd ((hdim v hv).mp h))]
        rw [Bool.not_eq_true] at hd; rw [hd]
    have haxs : ∀ k ∈ ks, ∀ a, Spec.axis r k = some a →
        (Spec.valueOf es k).dimless = false ∧ s.dims.get? k = some (some a) := by
      intro k hk a h
      rw [hax k hk] at h
      by_cases hd : (Spec.valueOf es k).dimless = true
      · rw [if_pos hd] at h; cases h
      · rw [if_neg hd] at h
        rw [Bool.not_eq_true] at hd
        exact ⟨hd, Option.join_eq_some_iff.mp h⟩
    refine ⟨r, h2, ?_, ?_, ?_, ?_⟩
    · intro k hk
      rw [hsc' k hk, hax k hk]
      by_cases hd : (Spec.valueOf es k).dimless = true
      · simp [hd]
      · rw [Bool.not_eq_true] at hd
        obtain ⟨n, _, hn2⟩ := inv.some_ k hk (hseen k hk) hd
        simp [hd, hn2]
    · intro k hk k' hk' hs1 hs2 hg
      rw [hsc' k hk] at hs1
      rw [hsc' k' hk'] at hs2
      rw [hax k hk, hax k' hk', hs1, hs2,
        inv.shared k hk k' hk' (hseen k hk) (hseen k' hk') hs1 hs2 hg]
    · intro k hk k' hk' a a' ha ha' hlt
      obtain ⟨hd, hda⟩ := haxs k hk a ha
      obtain ⟨hd', hda'⟩ := haxs k' hk' a' ha'
      exact inv.ordered k hk k' hk' (hseen k hk) (hseen k' hk') hd hd' a a' hda hda' hlt
    · intro k hk a ha b hb
      obtain ⟨hd, hda⟩ := haxs k hk a ha
      obtain ⟨n, hn1, hn2⟩ := inv.some_ k hk (hseen k hk) hd
      rw [hda] at hn2
      simp only [Option.some.injEq] at hn2
      obtain ⟨k', h6, _, h8, h9⟩ := inv.contiguous b (by omega)
      exact ⟨k', h6, by rw [hax k' h6, h8]; simp [h9]⟩

/-! ### Shapes -/

/-- The number of values of a variable: all those of a discrete set if nothing is
given, `|n|` samples for `{n}`, those of an array; none if it is a scalar. -/
def Spec.count (v : FVar) : FSpec → Option ℕ
  | .none => if v.isFloat then none else some v.len
  | .unit 0 => none
  | .unit (.ofNat n) => some n
  | .unit (.negSucc n) => some (n + 1)
  | .scalar => none
  | .array k => some k

theorem eval_count (v : FVar) (sp : FSpec) :
    v.eval sp = match Spec.count v sp with
      | none => .scalar
      | some n => .array n := by
  rcases sp with _ | n | _ | k
  · cases hf : v.isFloat <;> simp [FVar.eval, Spec.count, hf]
  · rcases n with n | n
    · rcases n with _ | n
      · rfl
      · show (if Int.ofNat (n + 1) = 0 then FOut.scalar else .array (n + 1)) = .array (n + 1)
        exact if_neg fun h => Nat.succ_ne_zero n (Int.ofNat.inj h)
    · simp [FVar.eval, Spec.count]
  · rfl
  · rfl

theorem count_dimless (v : FVar) (n : ℕ) (sp : FSpec) (h : Spec.count v sp = some n) :
    sp.dimless = false := by
  rcases sp with _ | m | _ | k
  · rfl
  · rcases m with m | m
    · rcases m with _ | m
      · simp [Spec.count] at h
      · exact decide_eq_false fun h => Nat.succ_ne_zero m (Int.ofNat.inj h)
    · simp [FSpec.dimless]
  · simp [Spec.count] at h
  · rfl

theorem lt_fieldNdims (dims : Dict Str (Option ℕ)) (k : Str) (d : ℕ)
    (h : dims.get? k = some (some d)) : d < fieldNdims dims := by
  induction dims with
  | nil => simp [Dict.get?] at h
  | cons e dims ih =>
      obtain ⟨k', o⟩ := e
      have hle : fieldNdims dims ≤ fieldNdims ((k', o) :: dims) := by
        cases o <;> simp [fieldNdims]
      by_cases hk : k' = k
      · simp only [Dict.get?, hk, if_true, Option.some.injEq] at h
        subst h
        simp [fieldNdims]
      · simp only [Dict.get?, hk, if_false] at h
        exact lt_of_lt_of_le (ih h) hle

theorem mapM_entries {α : Type} (f : FVar → Py (Str × α)) (g : FVar → α) (vars : List FVar)
    (h : ∀ v ∈ vars, f v = .ok (v.name, g v)) :
    vars.mapM f = .ok (vars.map fun v => (v.name, g v)) := by
  induction vars with
  | nil => rfl
  | cons v vars ih =>
      rw [List.mapM_cons, h v (by simp), ih (fun w hw => h w (by simp [hw]))]
      rfl

theorem get?_vars {α : Type} (g : FVar → α) (vars : List FVar) (hn : (vars.map FVar.name).Nodup)
    (v : FVar) (hv : v ∈ vars) :
    Dict.get? (vars.map fun v => (v.name, g v)) v.name = some (g v) := by
  induction vars with
  | nil => simp at hv
  | cons w vars ih =>
      simp only [List.map_cons, List.nodup_cons] at hn
      rcases List.mem_cons.mp hv with rfl | hv'
      · simp [Dict.get?]
      · have : w.name ≠ v.name := by
          intro h; exact hn.1 (h ▸ List.mem_map.mpr ⟨v, hv', rfl⟩)
        simp only [List.map_cons, Dict.get?, this, if_false]
        exact ih hn.2 hv'

/-- C41: every array is laid out along its own axis: all evaluated arrays have the
same number of axes, and each has its number of values on its axis and 1 on all
others. -/
theorem C41_shapes_partial (vars : List FVar) (es : FEntries) (hn : (vars.map FVar.name).Nodup)
    (hw : Spec.WellGiven (vars.map FVar.name) es)
    (hlead : Spec.LeadersDimensional (vars.map FVar.name) es) :
    ∃ dims shapes N, fieldDims vars es = .ok dims ∧ fieldShapes vars es = .ok shapes ∧
      ∀ v ∈ vars, match Spec.count v (Spec.valueOf es v.name) with
        | none => shapes.get? v.name = some []
        | some n => ∃ a sh, Spec.axis dims v.name = some a ∧ shapes.get? v.name = some sh ∧
            a < N ∧ sh.length = N ∧ ∀ i < N, sh[i]? = some (if i = a then n else 1) := by
  set ks := vars.map FVar.name with hks
  have hn' : (es.map Prod.fst).flatten.Nodup := hw.1.nodup_iff.mpr hn
  have hall : ∀ k, k ∈ (es.map Prod.fst).flatten ↔ k ∈ ks := fun k => hw.1.mem_iff
  unfold fieldDims fieldShapes
  by_cases hs : es.all (fun e => e.1.length = 1 && e.2 == [.scalar]) = true
  · refine ⟨[], _, 0, if_pos hs, if_pos hs, ?_⟩
    intro v hv
    obtain ⟨g, vs, w, hmem, hfind, hkg, hw', _⟩ := lookups es v.name hn' hw.2
      ((hall _).mpr (List.mem_map.mpr ⟨v, hv, rfl⟩))
    have hgv := List.all_eq_true.mp hs (g, vs) hmem
    simp only [Bool.and_eq_true, decide_eq_true_eq, beq_iff_eq] at hgv
    have hi : g.idxOf v.name = 0 := by
      have := List.idxOf_lt_length_iff.mpr hkg; omega
    have : Spec.valueOf es v.name = .scalar := by
      simp [Spec.valueOf, hfind, hgv.2, hi]
    rw [this]
    exact get?_vars (fun _ => []) vars hn v hv
  · rw [if_neg hs, if_neg hs]
    have hkeys0 : Dict.keys (vars.map fun v => (v.name, (none : Option ℕ))) = ks := by
      simp [Dict.keys, hks, Function.comp_def]
    obtain ⟨s, h1, inv⟩ := dimLoop_inv ks es hn hw hlead ks []
      ⟨0, vars.map (fun v => (v.name, none)), []⟩ rfl
      ⟨hkeys0, by simp, by simp, by simp, by simp, by simp⟩
    rw [← hks, h1]
    have hspec := specOf_eq vars es hn hw
    obtain ⟨r, h2, h3, _, h5⟩ := dropSingletons_spec es vars hspec s.dims hn
      (fun v hv => by rw [inv.keys]; exact List.mem_map.mpr ⟨v, hv, rfl⟩)
    have hseen : ∀ k ∈ ks, k ∈ s.seen := by
      intro k hk
      refine (inv.seen k hk).mpr ⟨k, hk, ?_⟩
      obtain ⟨g', vs', v', _, hf, hk', _⟩ := lookups es k hn' hw.2 ((hall k).mpr hk)
      simp [Spec.groupOf, hf, hk']
    have hdimless := fun (v : FVar) (_ : v ∈ vars) (n : ℕ) => count_dimless v n (Spec.valueOf es v.name)
    let shp : FVar → List ℕ := fun v =>
      match Spec.count v (Spec.valueOf es v.name), (s.dims.get? v.name).join with
      | some n, some a => (List.replicate (fieldNdims s.dims) 1).set a n
      | _, _ => []
    have hshp : vars.mapM (varShape es s.dims) = .ok (vars.map fun v => (v.name, shp v)) := by
      refine mapM_entries _ _ _ fun v hv => ?_
      simp only [varShape, hspec v hv, eval_count, shp]
      rcases hc : Spec.count v (Spec.valueOf es v.name) with _ | n
      · rfl
      · obtain ⟨a, _, ha⟩ := inv.some_ v.name (List.mem_map.mpr ⟨v, hv, rfl⟩)
          (hseen _ (List.mem_map.mpr ⟨v, hv, rfl⟩)) (hdimless v hv n hc)
        simp [reShape, ha, lt_fieldNdims _ _ _ ha]
    refine ⟨r, _, fieldNdims s.dims, h2, hshp, ?_⟩
    intro v hv
    rcases hc : Spec.count v (Spec.valueOf es v.name) with _ | n
    · simp only
      rw [get?_vars shp vars hn v hv]
      simp [shp, hc]
    · simp only
      obtain ⟨a, _, ha⟩ := inv.some_ v.name (List.mem_map.mpr ⟨v, hv, rfl⟩)
        (hseen _ (List.mem_map.mpr ⟨v, hv, rfl⟩)) (hdimless v hv n hc)
      refine ⟨a, (List.replicate (fieldNdims s.dims) 1).set a n, ?_, ?_, lt_fieldNdims _ _ _ ha,
        by simp, ?_⟩
      · unfold Spec.axis
        rw [h5 v hv, eval_count, hc, ha]
        simp
      · rw [get?_vars shp vars hn v hv]
        simp [shp, hc, ha]
      · intro i hi
        rw [List.getElem?_set]
        by_cases hia : a = i
        · subst hia; simp [hi]
        · simp [hia, hi, Ne.symm hia]

/-- With a group of scalars given jointly last, arrays get an axis that no variable
has. -/
theorem C41_extra_axis : ∃ dims shapes,
    fieldDims [⟨['x'], false, 2⟩, ⟨['y'], false, 2⟩, ⟨['z'], false, 2⟩]
      [([['x']], [.array 3]), ([['y'], ['z']], [.scalar, .scalar])] = .ok dims ∧
    fieldShapes [⟨['x'], false, 2⟩, ⟨['y'], false, 2⟩, ⟨['z'], false, 2⟩]
      [([['x']], [.array 3]), ([['y'], ['z']], [.scalar, .scalar])] = .ok shapes ∧
    shapes.get? ['x'] = some [3, 1] ∧ Spec.axis dims ['x'] = some 0 ∧
    Spec.axis dims ['y'] = none ∧ Spec.axis dims ['z'] = none :=
  ⟨_, _, rfl, rfl, rfl, rfl, rfl, rfl⟩

/-! ### Parsing -/

/-- What an entry gives to the `i`-th of its variables: one value is for all of them. -/
def Spec.given : RawVal → ℕ → FSpec
  | .one v, _ => v
  | .list vs, i => vs.getD i .none

/-- Raw values are well formed: each variable is given at most once, is one of the
field's, and lists, allowed only for joint keys, have a value for each name. -/
structure Spec.RawOk (ks : List Str) (raw : List (List Str × RawVal)) : Prop where
  once : (raw.map Prod.fst).flatten.Nodup
  nonempty : ∀ e ∈ raw, e.1 ≠ []
  known : ∀ k ∈ (raw.map Prod.fst).flatten, k ∈ ks
  lists : ∀ e ∈ raw, ∀ vs, e.2 = .list vs → 2 ≤ e.1.length ∧ vs.length = e.1.length

/-- An entry after normalisation. -/
def spread (e : List Str × RawVal) : List Str × List FSpec :=
  (e.1, match e.2 with
    | .one v => List.replicate e.1.length v
    | .list vs => vs)

theorem parseEntry_ok (ks : List Str) (e : List Str × RawVal) (hne : e.1 ≠ [])
    (hsub : ∀ k ∈ e.1, k ∈ ks)
    (hlen : ∀ vs, e.2 = .list vs → 2 ≤ e.1.length ∧ vs.length = e.1.length) :
    parseEntry ks e = .ok (spread e) := by
  obtain ⟨g, rv⟩ := e
  simp only at hne hsub hlen
  have hlast : g.getLast? = some (g.getLast hne) := List.getLast?_eq_some_getLast hne
  have hin : g.getLast hne ∈ ks := hsub _ (List.getLast_mem hne)
  rcases rv with v | vs
  · by_cases h2 : 2 ≤ g.length
    · simp [parseEntry, spread, h2, hlast, hin]
    · have : g.length = 1 := by
        have := List.length_pos_iff.mpr hne; omega
      simp [parseEntry, spread, hlast, hin, this]
  · obtain ⟨h1, h2⟩ := hlen vs rfl
    simp [parseEntry, spread, h1, h2, hlast, hin]

theorem parseAll_ok (ks : List Str) (raw : List (List Str × RawVal)) (hne : ∀ e ∈ raw, e.1 ≠ [])
    (hsub : ∀ e ∈ raw, ∀ k ∈ e.1, k ∈ ks)
    (hlen : ∀ e ∈ raw, ∀ vs, e.2 = .list vs → 2 ≤ e.1.length ∧ vs.length = e.1.length) :
    raw.mapM (parseEntry ks) = .ok (raw.map spread) := by
  induction raw with
  | nil => rfl
  | cons e raw ih =>
      rw [List.mapM_cons, parseEntry_ok ks e (hne e (by simp)) (hsub e (by simp)) (hlen e (by simp)),
        ih (fun e he => hne e (by simp [he])) (fun e he => hsub e (by simp [he]))
          (fun e he => hlen e (by simp [he]))]
      rfl

theorem find?_of_mem (es : FEntries) (hn : (es.map Prod.fst).flatten.Nodup) (e : List Str × List FSpec)
    (he : e ∈ es) (k : Str) (hk : k ∈ e.1) : es.find? (fun e => k ∈ e.1) = some e := by
  induction es with
  | nil => simp at he
  | cons a es ih =>
      simp only [List.map_cons, List.flatten_cons, List.nodup_append] at hn
      rcases List.mem_cons.mp he with rfl | he'
      · simp [hk]
      · have hka : k ∉ a.1 := fun h =>
          hn.2.2 k h k (List.mem_flatten.mpr ⟨e.1, List.mem_map.mpr ⟨e, he', rfl⟩, hk⟩) rfl
        simp [hka, ih hn.2.1 he']

/-- C41: parsing well formed values gives every variable exactly one value: the one
given for it or, if it is not mentioned, `{0}` or all its values.  It is `{0}` exactly if
some variable is continuous and no variable is itself given as `{0}`. -/
theorem C41_parse (vars : List FVar) (raw : List (List Str × RawVal))
    (hn : (vars.map FVar.name).Nodup) (hr : Spec.RawOk (vars.map FVar.name) raw) :
    ∃ es, parseArgs vars raw = .ok es ∧ Spec.WellGiven (vars.map FVar.name) es ∧
      (∀ e ∈ raw, ∀ i k, e.1[i]? = some k →
        Spec.groupOf es k = e.1 ∧ Spec.valueOf es k = Spec.given e.2 i) ∧
      ∀ k ∈ vars.map FVar.name, (∀ e ∈ raw, k ∉ e.1) → Spec.groupOf es k = [k] ∧
        ((∃ v ∈ vars, v.isFloat = true) ∧ (∀ j, ([j], RawVal.one (.unit 0)) ∉ raw) →
          Spec.valueOf es k = .unit 0) ∧
        ((∀ v ∈ vars, v.isFloat = false) ∨ (∃ j, ([j], RawVal.one (.unit 0)) ∈ raw) →
          Spec.valueOf es k = .none) := by
  set ks := vars.map FVar.name with hks
  have h1 := parseAll_ok ks raw hr.nonempty
    (fun e he k hk => hr.known k (List.mem_flatten.mpr ⟨e.1, List.mem_map.mpr ⟨e, he, rfl⟩, hk⟩))
    hr.lists
  have h2 : (raw.map spread).map Prod.fst = raw.map Prod.fst := by
    simp [spread, Function.comp_def]
  set seen := (raw.map Prod.fst).flatten with hseen
  set dv := defVal (vars.any FVar.isFloat) raw with hdv
  have hwg : Spec.WellGiven ks
      (raw.map spread ++ (ks.filter (· ∉ seen)).map fun k => ([k], [dv])) := by
    constructor
    · have : (raw.map spread ++ (ks.filter (· ∉ seen)).map
          fun k => ([k], [dv])).map Prod.fst =
          raw.map Prod.fst ++ (ks.filter (· ∉ seen)).map fun k => [k] := by
        rw [List.map_append, h2, List.map_map]; rfl
      rw [this, List.flatten_append, ← hseen]
      have hfl : ((ks.filter (· ∉ seen)).map fun k => [k]).flatten = ks.filter (· ∉ seen) := by
        generalize ks.filter (· ∉ seen) = l
        induction l with
        | nil => rfl
        | cons a l ih => simp [ih]
      rw [hfl]
      apply (List.perm_ext_iff_of_nodup ?_ hn).mpr
      · intro k
        simp only [List.mem_append, List.mem_filter, decide_eq_true_eq]
        constructor
        · rintro (h | h)
          · exact hr.known k h
          · exact h.1
        · intro h
          by_cases hk : k ∈ seen
          · exact Or.inl hk
          · exact Or.inr ⟨h, hk⟩
      · rw [List.nodup_append]
        refine ⟨hr.once, hn.filter _, ?_⟩
        rintro a ha b hb rfl
        simp only [List.mem_filter, decide_eq_true_eq] at hb
        exact hb.2 ha
    · intro e he
      rcases List.mem_append.mp he with he | he
      · obtain ⟨e0, he0, rfl⟩ := List.mem_map.mp he
        obtain ⟨g, rv⟩ := e0
        rcases rv with v | vs
        · simp [spread]
        · exact (hr.lists _ he0 vs rfl).2.symm
      · obtain ⟨k, _, rfl⟩ := List.mem_map.mp he
        rfl
  have hfind := find?_of_mem _ (hwg.1.nodup_iff.mpr hn)
  refine ⟨_, by simp only [parseArgs, ← hks, h1, h2, ← hseen, ← hdv], hwg, ?_, ?_⟩
  · intro e he i k hik
    have hk : k ∈ e.1 := List.mem_of_getElem? hik
    have hf := hfind (spread e) (by simp only [List.mem_append, List.mem_map]; exact Or.inl ⟨e, he, rfl⟩) k hk
    have hnd : e.1.Nodup := (List.nodup_flatten.mp hr.once).1 _ (List.mem_map.mpr ⟨e, he, rfl⟩)
    obtain ⟨hlt, hget⟩ := List.getElem?_eq_some_iff.mp hik
    have hidx : e.1.idxOf k = i := by rw [← hget]; exact List.Nodup.idxOf_getElem hnd i hlt
    refine ⟨by simp only [Spec.groupOf, hf, spread], ?_⟩
    simp only [Spec.valueOf, hf]
    obtain ⟨g, rv⟩ := e
    rcases rv with v | vs
    · simp only [spread, Spec.given, hidx] at *
      simp [List.getD_eq_getElem?_getD, hlt]
    · simp only [spread, Spec.given, hidx] at *
  · intro k hk hnot
    have hks' : k ∉ seen := by
      intro h
      obtain ⟨g, hg, hkg⟩ := List.mem_flatten.mp h
      obtain ⟨e, he, rfl⟩ := List.mem_map.mp hg
      exact hnot e he hkg
    have hf := hfind ([k], [dv]) (by
      simp only [List.mem_append, List.mem_map]
      exact Or.inr ⟨k, by simp [hk, hks'], rfl⟩) k (by simp)
    have hval : Spec.valueOf (raw.map spread ++ (ks.filter (· ∉ seen)).map
        fun k => ([k], [dv])) k = dv := by
      simp only [Spec.valueOf, hf]; simp
    refine ⟨by simp only [Spec.groupOf, hf], ?_, ?_⟩
    · rintro ⟨⟨v, hv, hvf⟩, hno⟩
      rw [hval, hdv]
      have hany : vars.any FVar.isFloat = true := List.any_eq_true.mpr ⟨v, hv, hvf⟩
      have hraw : raw.any givenZero = false := by
        rw [List.any_eq_false]
        rintro ⟨g, rv⟩ he h
        simp only [givenZero, Bool.and_eq_true, decide_eq_true_eq] at h
        have hg1 : g.length = 1 := by
          have := List.length_pos_iff.mpr (hr.nonempty _ he)
          simp only at this
          omega
        obtain ⟨j, rfl⟩ := List.length_eq_one_iff.mp hg1
        rcases rv with (_ | n | _ | _) | _
        · simp at h
        · have : n = 0 := by simpa using h.2
          exact hno j (this ▸ he)
        · simp at h
        · simp at h
        · simp at h
      simp only [defVal, hany, hraw, if_true]; rfl
    · intro hor
      rw [hval, hdv]
      rcases hor with hnf | ⟨j, hj⟩
      · have hany : vars.any FVar.isFloat = false := by
          rw [List.any_eq_false]
          intro v hv
          simp [hnf v hv]
        simp only [defVal, hany]; rfl
      · have hraw : raw.any givenZero = true :=
          List.any_eq_true.mpr ⟨_, hj, by simp [givenZero]⟩
        simp only [defVal, hraw, if_true, ite_self]

theorem mapM_raises {α β : Type} (f : α → Py β) (l : List α) (a : α) (ha : a ∈ l)
    (h : Raises (f a)) : Raises (l.mapM f) := by
  induction l with
  | nil => simp at ha
  | cons b l ih =>
      rw [List.mapM_cons]
      rcases hb : f b with e | y
      · exact ⟨e, rfl⟩
      · rcases List.mem_cons.mp ha with rfl | ha'
        · obtain ⟨e, he⟩ := h
          rw [he] at hb; cases hb
        · obtain ⟨e, he⟩ := ih ha'
          exact ⟨e, by rw [he]; rfl⟩

/-- C41: values are refused if a list for a joint key does not have a value for each
of its names, or if a name given alone, or the last one of a joint key, is not one
of the field's. -/
theorem C41_refused (vars : List FVar) (raw : List (List Str × RawVal)) (e : List Str × RawVal)
    (he : e ∈ raw)
    (h : (∃ vs, e.2 = .list vs ∧ 2 ≤ e.1.length ∧ vs.length ≠ e.1.length) ∨
      ∃ k, e.1.getLast? = some k ∧ k ∉ vars.map FVar.name) :
    Raises (parseArgs vars raw) := by
  have hp : Raises (parseEntry (vars.map FVar.name) e) := by
    obtain ⟨g, rv⟩ := e
    rcases h with ⟨vs, rfl, h2, h3⟩ | ⟨k, h1, h2⟩
    · exact ⟨.assertion, by simp only at h2 h3; simp [parseEntry, h2, h3]⟩
    · unfold parseEntry
      simp only at h1
      dsimp only
      split
      · exact ⟨_, rfl⟩
      · rw [h1]; simp only [h2, if_false]; exact ⟨_, rfl⟩
  obtain ⟨err, h1⟩ := mapM_raises _ _ _ he hp
  exact ⟨err, by simp only [parseArgs, h1]⟩

/-! ### Where the claim fails -/

/-- C41 fails: given `x,y` jointly as a scalar and an array, the axis they share is
used again for `z`. -/
theorem C41_claim_fails : ¬ C41_claim := by
  intro h
  obtain ⟨dims, h1, h2⟩ := h [⟨['x'], false, 2⟩, ⟨['y'], false, 2⟩, ⟨['z'], false, 2⟩]
    [([['x'], ['y']], [.scalar, .array 3]), ([['z']], [.array 2])] (by decide)
    ⟨by decide, by decide⟩
  have he : fieldDims [⟨['x'], false, 2⟩, ⟨['y'], false, 2⟩, ⟨['z'], false, 2⟩]
      [([['x'], ['y']], [.scalar, .array 3]), ([['z']], [.array 2])] =
      .ok [(['x'], none), (['y'], some 0), (['z'], some 0)] := by rfl
  rw [he] at h1
  simp only [Except.ok.injEq] at h1
  subst h1
  have := h2.ordered ['y'] (by decide) ['z'] (by decide) 0 0 rfl rfl (by decide)
  omega

/-- C41 also fails for a float variable without value next to one given as `{0}`:
it takes an axis and then becomes a scalar, leaving axis 0 without variable. -/
theorem C41_gap_fails : ∃ dims,
    fieldDims [⟨['x'], true, 0⟩, ⟨['y'], false, 2⟩] [([['y']], [.array 3]), ([['x']], [.none])] =
      .ok dims ∧ Spec.axis dims ['x'] = none ∧ Spec.axis dims ['y'] = some 1 :=
  ⟨_, rfl, rfl, rfl⟩

/-- An unknown variable at the front of a joint key is not refused. -/
theorem C41_unknown_accepted : ∃ es,
    parseArgs [⟨['x'], false, 2⟩] [([['q'], ['x']], .one .scalar)] = .ok es :=
  ⟨_, rfl⟩

/-- Non-vacuity: a scalar, a joint pair of arrays and an array. -/
example : ∃ (vars : List FVar) (es : FEntries) (dims : Dict Str (Option ℕ)),
    (vars.map FVar.name).Nodup ∧ Spec.WellGiven (vars.map FVar.name) es ∧
    Spec.LeadersDimensional (vars.map FVar.name) es ∧ Spec.NoFloatNone vars es ∧
    fieldDims vars es = .ok dims ∧ Spec.axis dims ['d'] = some 0 ∧
    Spec.axis dims ['b'] = some 0 ∧ Spec.axis dims ['c'] = some 1 ∧ Spec.axis dims ['a'] = none :=
  ⟨[⟨['a'], true, 2⟩, ⟨['b'], false, 2⟩, ⟨['c'], false, 2⟩, ⟨['d'], false, 2⟩],
   [([['d'], ['b']], [.array 3, .array 3]), ([['a']], [.unit 0]), ([['c']], [.none])], _,
   by decide, ⟨by decide, by decide⟩, by unfold Spec.LeadersDimensional; decide,
   by unfold Spec.NoFloatNone; decide, rfl, rfl, rfl, rfl, rfl⟩

/-- Non-vacuity of `C41_shapes_partial`: three random samples of `a` on axis 0, the
values of `b` on axis 1 and `c` left at one value. -/
example : ∃ (vars : List FVar) (es : FEntries),
    (vars.map FVar.name).Nodup ∧ Spec.WellGiven (vars.map FVar.name) es ∧
    Spec.LeadersDimensional (vars.map FVar.name) es ∧
    fieldShapes vars es = .ok [(['a'], [3, 1]), (['b'], [1, 2]), (['c'], [])] :=
  ⟨[⟨['a'], true, 0⟩, ⟨['b'], false, 2⟩, ⟨['c'], true, 0⟩],
   [([['a']], [.unit (-3)]), ([['b']], [.none]), ([['c']], [.unit 0])],
   by decide, ⟨by decide, by decide⟩, by unfold Spec.LeadersDimensional; decide, rfl⟩

/-- Non-vacuity of `C41_parse`: `a` and `b` are given jointly, `c` is not mentioned. -/
example : ∃ (vars : List FVar) (raw : List (List Str × RawVal)) (es : FEntries),
    (vars.map FVar.name).Nodup ∧ Spec.RawOk (vars.map FVar.name) raw ∧
    parseArgs vars raw = .ok es ∧ Spec.valueOf es ['b'] = .array 3 ∧
    Spec.valueOf es ['c'] = .unit 0 :=
  ⟨[⟨['a'], true, 0⟩, ⟨['b'], false, 2⟩, ⟨['c'], true, 0⟩],
   [([['a'], ['b']], .list [.unit 0, .array 3])], _, by decide,
   ⟨by decide, by decide, by decide, by
      intro e he vs h
      simp only [List.mem_singleton] at he
      subst he
      cases h
      decide⟩, rfl, rfl, rfl⟩

end Probayes
