/-
C62: looking up variables of a distribution and moving its axes.
-/
import Mathlib.Data.List.TakeWhile
import Verif.Model.DistOps
import Verif.Props.PDSerial
import Verif.Lemmas.PDProduct3

namespace Probayes

/-! ### specification -/

/-- What `lookup` gives for a group of variables: a scalar as it is, the values of a
single array, or for several arrays the tuple of their values in the order of the
group. -/
inductive Spec.LookEntry (d : PD) : List Str → LookVal → Prop
  | scalar {k : Str} {v : Val} (h : Dict.get? d.vals k = some v) (hs : v.issingleton = true) :
      Spec.LookEntry d [k] (.single v)
  | array {k : Str} {s : List ℕ} {xs : List ℚ} (h : Dict.get? d.vals k = some (.arr s xs))
      (hs : s ≠ []) : Spec.LookEntry d [k] (.flat xs)
  | joint {ks : List Str} {xss : List (List ℚ)} (hl : 2 ≤ ks.length)
      (h : List.Forall₂ (fun k xs => ∃ s, s ≠ [] ∧ Dict.get? d.vals k = some (.arr s xs)) ks xss) :
      Spec.LookEntry d ks (.tuple xss)

/-- Two variables are looked up together: the same variable, or arrays on one axis. -/
def Spec.Together (d : PD) (k k' : Str) : Prop := k = k' ∨ ∃ a, d.axis k = some a ∧ d.axis k' = some a

/-! ### lookup -/

theorem takeWhile_comma {k : Str} (h : ',' ∉ k) (more : List Str) :
    ([','].intercalate (k :: more)).takeWhile (fun c => decide (c ≠ ',')) = k := by
  have hk : k.takeWhile (fun c => decide (c ≠ ',')) = k := by
    rw [List.takeWhile_eq_self_iff]
    intro c hc
    simp only [decide_eq_true_eq]
    rintro rfl
    exact h hc
  rcases more with _ | ⟨b, more⟩
  · simpa [List.intercalate, List.intersperse] using hk
  · have : [','].intercalate (k :: b :: more) = k ++ ',' :: [','].intercalate (b :: more) := by
      simp [List.intercalate, List.intersperse]
    rw [this, List.takeWhile_append_of_pos]
    · simp
    · intro c hc
      simp only [decide_eq_true_eq]
      rintro rfl
      exact h hc

theorem PD.WF.comma {fmt : Val → Str} {d : PD} (h : d.WF fmt) {k : Str} (hk : k ∈ d.vals.keys) :
    ',' ∉ k := by
  have : ∀ m : Dict Str Str, Spec.Side m → k ∈ m.keys → ',' ∉ k := by
    intro m hm hk
    obtain ⟨t, ht⟩ := Dict.get?_of_mem_keys hk
    have he := hm.2 _ (Dict.get?_mem ht)
    rcases he.key with ⟨⟨v, hv⟩, _⟩ | ⟨hv, _⟩
    · intro hc
      apply he.comma
      simp only at hv
      rw [hv]; simp [hc]
    · have := he.comma
      simp only at hv this
      rwa [hv] at this
  rcases (h.keys k).mp hk with hm | hm
  · exact this _ h.margSide hm
  · exact this _ h.condSide hm

/-- An array variable of a well-formed distribution. -/
theorem PD.WF.arrayAt {fmt : Val → Str} {d : PD} (h : d.WF fmt) {k : Str} {v : Val}
    (hv : Dict.get? d.vals k = some v) (hs : v.issingleton = false) :
    ∃ s xs a, s ≠ [] ∧ v = .arr s xs ∧ Dict.get? d.vals k = some (.arr s xs) ∧ d.axis k = some a ∧
      Dict.get? d.dims k = some (some a) := by
  obtain ⟨a, s, xs, rfl, _, ha, _⟩ := h.array k v hv hs
  refine ⟨s, xs, a, ?_, rfl, hv, by rw [PD.axis, ha]; rfl, ha⟩
  rintro rfl
  simp [Val.issingleton] at hs

theorem PD.WF.axis_scalar {fmt : Val → Str} {d : PD} (h : d.WF fmt) {k : Str} {v : Val}
    (hv : Dict.get? d.vals k = some v) (hs : v.issingleton = true) : d.axis k = none := by
  rw [PD.axis, (h.single k v hv hs).1]; rfl

/-- What the loop adds from some position on. -/
structure LookAdds (d : PD) (ks : List Str) (todo : List Str) (gs : List (List Str))
    (vs : List LookVal) : Prop where
  perm : gs.flatten.Perm todo
  heads : (gs.filterMap List.head?).Sublist ks
  ne : ∀ g ∈ gs, g ≠ []
  sub : ∀ g ∈ gs, g.Sublist ks
  same : ∀ g ∈ gs, ∀ k ∈ g, ∀ k' ∈ todo, k' ∈ g ↔ Spec.Together d k k'
  entry : List.Forall₂ (Spec.LookEntry d) gs vs

theorem lookLoop_ok {fmt : Val → Str} {d : PD} (h : d.WF fmt) (keys : List Str) :
    ∀ (rest : Dict Str Val) (vals : Dict Str LookVal) (seen : List Str),
      rest.keys.Nodup → (∀ kv ∈ rest, Dict.get? d.vals kv.1 = some kv.2) →
      (∀ k ∈ rest.keys, ∀ k' ∈ rest.keys, k ∈ keys → k' ∈ keys → Spec.Together d k k' →
        k ∈ seen → k' ∈ seen) →
      (∀ n ∈ vals.keys, n.takeWhile (fun c => decide (c ≠ ',')) ∉ rest.keys) →
      ∃ gs vs, lookLoop d.dist keys (rest.map fun kv => (kv.1, kv.2.issingleton)) vals seen
          = .ok (vals ++ (gs.map [','].intercalate).zip vs) ∧
        LookAdds d rest.keys (rest.keys.filter fun k => decide (k ∈ keys ∧ k ∉ seen)) gs vs := by
  intro rest
  induction rest with
  | nil =>
    intro vals seen _ _ _ _
    exact ⟨[], [], by simp [lookLoop], ⟨by simp, by simp, by simp, by simp, by simp, .nil⟩⟩
  | cons kv rest ih =>
    obtain ⟨k, v⟩ := kv
    intro vals seen hn hg hcl hfresh
    simp only [Dict.keys_cons, List.nodup_cons] at hn
    have hkv : Dict.get? d.vals k = some v := hg (k, v) (by simp)
    have hmemd : ∀ c ∈ (Dict.keys rest), c ∈ d.vals.keys := by
      intro c hc
      obtain ⟨u, hu⟩ := Dict.get?_of_mem_keys hc
      exact Dict.mem_keys_of_get? (hg _ (List.mem_cons_of_mem _ (Dict.get?_mem hu)))
    have hcl' : ∀ k ∈ (Dict.keys rest), ∀ k' ∈ (Dict.keys rest), k ∈ keys → k' ∈ keys → Spec.Together d k k' →
        k ∈ seen → k' ∈ seen := fun a ha b hb => hcl a (by simp [ha]) b (by simp [hb])
    have hfr' : ∀ n ∈ vals.keys, n.takeWhile (fun c => decide (c ≠ ',')) ∉ (Dict.keys rest) := by
      intro n hn' hc; exact hfresh n hn' (by rw [Dict.keys_cons]; exact List.mem_cons_of_mem _ hc)
    by_cases hk : k ∈ keys ∧ k ∉ seen
    · -- a new group
      have hcomma : ',' ∉ k := h.comma (Dict.mem_keys_of_get? hkv)
      -- the common part of the cases
      have main : ∀ (more : List Str) (lv : LookVal), more.Sublist (Dict.keys rest) →
          (∀ c ∈ (Dict.keys rest), c ∈ more ↔ c ∈ keys ∧ Spec.Together d k c) →
          (∀ c ∈ more, c ∉ seen) → Spec.LookEntry d (k :: more) lv →
          lookLoop d.dist keys (((k, v) :: rest).map fun kv => (kv.1, kv.2.issingleton)) vals seen
            = lookLoop d.dist keys (rest.map fun kv => (kv.1, kv.2.issingleton))
                (Dict.set vals ([','].intercalate (k :: more)) lv) ((k :: more) ++ seen) →
          ∃ gs vs, lookLoop d.dist keys (((k, v) :: rest).map fun kv => (kv.1, kv.2.issingleton)) vals seen
              = .ok (vals ++ (gs.map [','].intercalate).zip vs) ∧
            LookAdds d (Dict.keys ((k, v) :: rest))
              ((Dict.keys ((k, v) :: rest)).filter fun k => decide (k ∈ keys ∧ k ∉ seen)) gs vs := by
        intro more lv hsub hmore hms hlv heq
        have htw := takeWhile_comma hcomma more
        have hset : Dict.set vals ([','].intercalate (k :: more)) lv
            = vals ++ [([','].intercalate (k :: more), lv)] := by
          apply Dict.set_of_notMem
          intro hc
          have := hfresh _ hc
          rw [htw] at this
          exact this (by simp)
        obtain ⟨gs, vs, hl, ha⟩ := ih (Dict.set vals ([','].intercalate (k :: more)) lv)
          ((k :: more) ++ seen) hn.2 (fun kv hkv => hg kv (by simp [hkv])) (by
            intro a ha b hb hak hbk hab has
            simp only [List.cons_append, List.mem_cons, List.mem_append] at has ⊢
            rcases has with rfl | has | has
            · exact absurd ha hn.1
            · right; left
              rw [hmore a ha] at has
              rw [hmore b hb]
              refine ⟨hbk, ?_⟩
              rcases hab with rfl | ⟨x, hx1, hx2⟩
              · exact has.2
              · rcases has.2 with rfl | ⟨y, hy1, hy2⟩
                · exact absurd ha hn.1
                · refine Or.inr ⟨x, ?_, hx2⟩
                  rw [hx1] at hy2
                  rw [hy1, hy2]
            · right; right; exact hcl' a ha b hb hak hbk hab has) (by
            rw [hset, Dict.keys_append]
            intro n hn'
            rcases List.mem_append.mp hn' with hn' | hn'
            · exact hfr' n hn'
            · simp only [Dict.keys_cons, Dict.keys_nil, List.mem_singleton] at hn'
              rw [hn', htw]; exact hn.1)
        have hrest : ∀ c ∈ (Dict.keys rest), c ≠ k := by rintro c hc rfl; exact hn.1 hc
        have hfilt : ((Dict.keys rest).filter fun k' => decide (k' ∈ keys ∧ k' ∉ (k :: more) ++ seen))
            = ((Dict.keys rest).filter fun k' => decide (k' ∈ keys ∧ k' ∉ seen)).filter
                (fun k' => !decide (k' ∈ more)) := by
          rw [List.filter_filter]
          apply List.filter_congr
          intro c hc
          have := hrest c hc
          by_cases h1 : c ∈ keys <;> by_cases h2 : c ∈ more <;> by_cases h3 : c ∈ seen <;>
            simp [h1, h2, h3, this]
        have hmoref : more = ((Dict.keys rest).filter fun k' => decide (k' ∈ keys ∧ k' ∉ seen)).filter
                (fun k' => decide (k' ∈ more)) := by
          rw [List.filter_filter]
          have hnd : more.Nodup := hsub.nodup hn.2
          have : ((Dict.keys rest).filter fun a => decide (a ∈ more) && decide (a ∈ keys ∧ a ∉ seen))
              = (Dict.keys rest).filter fun a => decide (a ∈ more) := by
            apply List.filter_congr
            intro c hc
            by_cases h2 : c ∈ more
            · have h4 := (hmore c hc).mp h2
              have h5 := hms c h2
              simp [h2, h4.1, h5]
            · simp [h2]
          rw [this]
          symm
          have hs2 : more.Sublist ((Dict.keys rest).filter fun a => decide (a ∈ more)) := by
            have := hsub.filter (fun a => decide (a ∈ more))
            rwa [List.filter_eq_self.mpr (by simp)] at this
          refine (hs2.eq_of_length ?_).symm
          apply le_antisymm hs2.length_le
          have : ((Dict.keys rest).filter fun a => decide (a ∈ more)).Subperm more := by
            apply List.subperm_of_subset (hn.2.filter _)
            intro a ha
            simpa using (List.mem_filter.mp ha).2
          exact this.length_le
        have htodo : ((Dict.keys ((k, v) :: rest)).filter fun k => decide (k ∈ keys ∧ k ∉ seen))
            = k :: (Dict.keys rest).filter fun k' => decide (k' ∈ keys ∧ k' ∉ seen) := by
          rw [Dict.keys_cons, List.filter_cons, if_pos (by simpa using hk)]
        refine ⟨(k :: more) :: gs, lv :: vs, ?_, ?_⟩
        · rw [heq, hl, hset]; simp
        · refine ⟨?_, ?_, ?_, ?_, ?_, .cons hlv ha.entry⟩
          · rw [htodo, List.flatten_cons, List.cons_append]
            refine List.Perm.cons _ ?_
            refine (List.Perm.append_left more ha.perm).trans ?_
            rw [hfilt]
            conv_lhs => rw [hmoref]
            have := List.filter_append_perm (fun k' => decide (k' ∈ more))
              ((Dict.keys rest).filter fun k' => decide (k' ∈ keys ∧ k' ∉ seen))
            rw [← hmoref]
            rw [← hmoref] at this
            exact this
          · simp only [List.filterMap_cons, List.head?_cons, Dict.keys_cons]
            exact ha.heads.cons₂ _
          · intro g hg'
            rcases List.mem_cons.mp hg' with rfl | hg'
            · simp
            · exact ha.ne g hg'
          · intro g hg'
            rcases List.mem_cons.mp hg' with rfl | hg'
            · exact hsub.cons₂ _
            · exact (ha.sub g hg').cons _
          · rw [htodo]
            -- members of later groups are unrelated to `k`
            have hlater : ∀ g ∈ gs, ∀ c ∈ g, c ∈ (Dict.keys rest) ∧ c ∈ keys ∧ c ∉ seen ∧ c ∉ more := by
              intro g hg' c hc
              have := ha.perm.mem_iff.mp (List.mem_flatten.mpr ⟨g, hg', hc⟩)
              rw [hfilt] at this
              simp only [List.mem_filter, decide_eq_true_eq, Bool.not_eq_true', decide_eq_false_iff_not] at this
              exact ⟨this.1.1, this.1.2.1, this.1.2.2, this.2⟩
            have hsym : ∀ a b, Spec.Together d a b → Spec.Together d b a := by
              rintro a b (rfl | ⟨x, h1, h2⟩)
              · exact Or.inl rfl
              · exact Or.inr ⟨x, h2, h1⟩
            have htr : ∀ a b c, Spec.Together d a b → Spec.Together d b c → Spec.Together d a c := by
              rintro a b c (rfl | ⟨x, h1, h2⟩) (rfl | ⟨y, h3, h4⟩)
              · exact Or.inl rfl
              · exact Or.inr ⟨y, h3, h4⟩
              · exact Or.inr ⟨x, h1, h2⟩
              · rw [h2] at h3
                simp only [Option.some.injEq] at h3
                subst h3
                exact Or.inr ⟨x, h1, h4⟩
            have hgrp : ∀ c ∈ k :: more, Spec.Together d k c := by
              intro c hc
              rcases List.mem_cons.mp hc with rfl | hc
              · exact Or.inl rfl
              · exact ((hmore c (hsub.subset hc)).mp hc).2
            intro g hgm a hag b hb
            have hb' : b = k ∨ b ∈ (Dict.keys rest) ∧ b ∈ keys ∧ b ∉ seen := by
              simpa using hb
            rcases List.mem_cons.mp hgm with rfl | hg2
            · constructor
              · intro hbg
                exact htr _ _ _ (hsym _ _ (hgrp a hag)) (hgrp b hbg)
              · intro hab
                rcases hb' with rfl | ⟨hb1, hb2, _⟩
                · simp
                · exact List.mem_cons_of_mem _ ((hmore b hb1).mpr ⟨hb2, htr _ _ _ (hgrp a hag) hab⟩)
            · obtain ⟨ha1, ha2, ha3, ha4⟩ := hlater g hg2 a hag
              have hnot : ¬ Spec.Together d k a := fun hc => ha4 ((hmore a ha1).mpr ⟨ha2, hc⟩)
              rcases hb' with rfl | ⟨hb1, hb2, hb3⟩
              · constructor
                · intro hbg; exact absurd (hlater g hg2 b hbg).1 hn.1
                · intro hab; exact absurd (hsym _ _ hab) hnot
              · by_cases hbm : b ∈ more
                · constructor
                  · intro hbg; exact absurd hbm (hlater g hg2 b hbg).2.2.2
                  · intro hab
                    exact absurd (htr _ _ _ (hgrp b (by simp [hbm])) (hsym _ _ hab)) hnot
                · refine ha.same g hg2 a hag b ?_
                  rw [hfilt]
                  simp [hb1, hb2, hb3, hbm]
      rcases hs : v.issingleton with _ | _
      · -- an array
        obtain ⟨s, xs, a, hsne, rfl, _, hax, hdim⟩ := h.arrayAt hkv hs
        have hraw : ∀ c ∈ k :: lookShared d.dist keys k (rest.map fun kv => (kv.1, kv.2.issingleton)),
            ∃ ys, lookRavel d.dist c = .ok ys ∧
              ∃ s, s ≠ [] ∧ Dict.get? d.vals c = some (.arr s ys) := by
          intro c hc
          rcases List.mem_cons.mp hc with rfl | hc
          · exact ⟨xs, by simp [lookRavel, getVal, hkv, ravelVal, bind, Except.bind], s, hsne, hkv⟩
          · simp only [lookShared, List.mem_map, List.mem_filter, Bool.and_eq_true, decide_eq_true_eq,
              Bool.not_eq_true'] at hc
            obtain ⟨⟨c', b⟩, ⟨⟨⟨k1, v1⟩, hk1, heq⟩, ⟨⟨h1, h2⟩, h3⟩⟩, rfl⟩ := hc
            simp only [Prod.mk.injEq] at heq h1 h2 h3
            obtain ⟨rfl, rfl⟩ := heq
            have hv1 := hg _ (List.mem_cons_of_mem _ hk1)
            obtain ⟨s', ys, a', hs', rfl, hgv, _⟩ := h.arrayAt hv1 h2
            exact ⟨ys, by simp [lookRavel, getVal, hgv, ravelVal, bind, Except.bind], s', hs', hgv⟩
        have hsubm : (lookShared d.dist keys k (rest.map fun kv => (kv.1, kv.2.issingleton))).Sublist
            (Dict.keys rest) := by
          have : (Dict.keys rest) = (rest.map fun kv => (kv.1, kv.2.issingleton)).map (·.1) := by
            simp [Dict.keys]
          rw [this]
          exact List.filter_sublist.map _
        have hmore : ∀ c ∈ (Dict.keys rest),
            c ∈ lookShared d.dist keys k (rest.map fun kv => (kv.1, kv.2.issingleton)) ↔
              c ∈ keys ∧ Spec.Together d k c := by
          intro c hc
          obtain ⟨u, hu⟩ := Dict.get?_of_mem_keys hc
          have hum := Dict.get?_mem hu
          have hgu := hg _ (List.mem_cons_of_mem _ hum)
          simp only at hgu
          simp only [lookShared, List.mem_map, List.mem_filter, Bool.and_eq_true, decide_eq_true_eq,
              Bool.not_eq_true']
          constructor
          · rintro ⟨⟨c', b⟩, ⟨⟨⟨k1, v1⟩, hk1, heq⟩, ⟨⟨h1, h2⟩, h3⟩⟩, rfl⟩
            simp only [Prod.mk.injEq] at heq h1 h2 h3
            obtain ⟨rfl, rfl⟩ := heq
            refine ⟨h1, Or.inr ⟨a, hax, ?_⟩⟩
            rw [PD.axis, ← h3, hdim]; rfl
          · rintro ⟨h1, h2⟩
            have hck : k ≠ c := by rintro rfl; exact hn.1 hc
            obtain ⟨x, hx1, hx2⟩ := h2.resolve_left hck
            have hu2 : u.issingleton = false := by
              by_contra hcc
              rw [h.axis_scalar hgu (by simpa using hcc)] at hx2
              simp at hx2
            refine ⟨(c, u.issingleton), ⟨⟨⟨c, u⟩, hum, rfl⟩, ⟨⟨h1, hu2⟩, ?_⟩⟩, rfl⟩
            have e1 := join_eq_some.mp hx1
            have e2 := join_eq_some.mp hx2
            exact e1.trans e2.symm
        have hms : ∀ c ∈ lookShared d.dist keys k (rest.map fun kv => (kv.1, kv.2.issingleton)),
            c ∉ seen := by
          intro c hc hcs
          have hcr := hsubm.subset hc
          obtain ⟨h1, h2⟩ := (hmore c hcr).mp hc
          apply hk.2
          refine hcl c (by simp [hcr]) k (by simp) h1 hk.1 ?_ hcs
          rcases h2 with rfl | ⟨x, hx1, hx2⟩
          · exact Or.inl rfl
          · exact Or.inr ⟨x, hx2, hx1⟩
        rcases hm : lookShared d.dist keys k (rest.map fun kv => (kv.1, kv.2.issingleton)) with _ | ⟨m, ms⟩
        · rw [hm] at hsubm hmore hms
          refine main [] (.flat xs) hsubm hmore hms (.array hkv hsne) ?_
          obtain ⟨ys, hy, _, _, hy2⟩ := hraw k (by simp)
          have : ys = xs := by rw [hkv] at hy2; simpa using (Val.arr.inj (Option.some.inj hy2)).2.symm
          subst this
          simp only [List.map_cons, lookLoop, if_pos hk, hs, hm, hy, bind, Except.bind]
          simp [List.intercalate, List.intersperse]
        · rw [hm] at hsubm hmore hms hraw
          obtain ⟨yss, hy, hf⟩ := mapM_forall₂ _ hraw
          refine main (m :: ms) (.tuple yss) hsubm hmore hms (.joint (by simp) hf) ?_
          simp only [List.map_cons, lookLoop, if_pos hk, hs, hm, hy, bind, Except.bind]
          simp
      · -- a scalar
        have haxn := h.axis_scalar hkv hs
        refine main [] (.single v) (by simp) ?_ (by simp) (.scalar hkv hs) ?_
        · intro c hc
          simp only [List.not_mem_nil, false_iff, not_and]
          rintro _ (rfl | ⟨x, hx, _⟩)
          · exact hn.1 hc
          · rw [haxn] at hx; simp at hx
        · simp only [List.map_cons, lookLoop, if_pos hk, hs, if_true, getVal, hkv, bind, Except.bind]
          simp [List.intercalate, List.intersperse]
    · -- not asked for, or already included
      obtain ⟨gs, vs, hl, ha⟩ := ih vals seen hn.2 (fun kv hkv => hg kv (by simp [hkv])) hcl' hfr'
      have htodo : ((Dict.keys ((k, v) :: rest)).filter fun k => decide (k ∈ keys ∧ k ∉ seen))
          = (Dict.keys rest).filter fun k' => decide (k' ∈ keys ∧ k' ∉ seen) := by
        rw [Dict.keys_cons, List.filter_cons, if_neg (by simpa using hk)]
      refine ⟨gs, vs, ?_, ?_⟩
      · rw [List.map_cons, lookLoop, if_neg hk]; exact hl
      · rw [htodo]
        exact ⟨ha.perm, ha.heads.cons _, ha.ne, fun g hg' => (ha.sub g hg').cons _, ha.same, ha.entry⟩

/-- The variables asked for, in the order of the distribution: those named, or all
of them when none is named. -/
def Spec.asked (d : PD) (keys : List Str) : List Str :=
  d.keylist.filter fun k => decide (keys = [] ∨ k ∈ keys)

theorem asked_lookKeys (d : PD) (keys : List Str) :
    (d.keylist.filter fun k => decide (k ∈ lookKeys d.dist keys)) = Spec.asked d keys := by
  apply List.filter_congr
  intro k hk
  unfold lookKeys
  by_cases h : keys = []
  · have : k ∈ Dict.keys d.dist.vals := hk
    simp [h, this]
  · simp [h]

/-- C62, `lookup`: the variables asked for fall into groups — scalars by themselves,
arrays with the other arrays asked for on the same axis — every variable asked for
is in exactly one group, groups are in the order of their first members, and the
result has one entry for each group, named after its members, with their values. -/
theorem C62_lookup (fmt : Val → Str) (d : PD) (h : d.WF fmt) (keys : List Str) :
    ∃ (gs : List (List Str)) (r : Dict Str LookVal), d.dist.lookup keys = .ok r ∧
      r.keys = gs.map [','].intercalate ∧ List.Forall₂ (Spec.LookEntry d) gs r.vals ∧
      gs.flatten.Perm (Spec.asked d keys) ∧
      (∀ g ∈ gs, g ≠ [] ∧ g.Sublist d.keylist) ∧
      (gs.filterMap List.head?).Sublist d.keylist ∧
      ∀ g ∈ gs, ∀ k ∈ g, ∀ k' ∈ Spec.asked d keys, k' ∈ g ↔ Spec.Together d k k' := by
  obtain ⟨gs, vs, hl, ha⟩ := lookLoop_ok h (lookKeys d.dist keys) d.vals [] [] h.nodup
    (fun kv hkv => Dict.get?_of_mem h.nodup hkv) (by simp) (by simp)
  have hzip : d.dist.vals.keys.zip d.dist.aresingleton
      = d.vals.map fun kv => (kv.1, kv.2.issingleton) := by
    rw [h.are]
    show (Dict.keys d.dist.vals).zip _ = _
    unfold Dict.keys
    rw [List.zip_map']
  have hfil : (Dict.keys d.vals).filter (fun k => decide (k ∈ lookKeys d.dist keys ∧ k ∉ ([] : List Str)))
      = Spec.asked d keys := by
    rw [← asked_lookKeys]
    apply List.filter_congr
    intro k _; simp
  rw [hfil] at ha
  have hlen : (gs.map [','].intercalate).length = vs.length := by
    rw [List.length_map]; exact ha.entry.length_eq
  refine ⟨gs, (gs.map [','].intercalate).zip vs, ?_, ?_, ?_, ha.perm,
    fun g hg => ⟨ha.ne g hg, ha.sub g hg⟩, ha.heads, ha.same⟩
  · rw [Dist.lookup, hzip, hl]; simp
  · exact List.map_fst_zip (le_of_eq hlen)
  · have : Dict.vals ((gs.map [','].intercalate).zip vs) = vs := List.map_snd_zip (le_of_eq hlen.symm)
    rw [this]; exact ha.entry

/-! ### singleton -/

/-- C62, `singleton`: without an argument it tells whether all variables are
scalars; with a name or a position it always raises. -/
theorem C62_singleton (fmt : Val → Str) (d : PD) (h : d.WF fmt) :
    (∃ b, d.dist.singleton .none = .ok b ∧
      (b = true ↔ ∀ k v, Dict.get? d.vals k = some v → v.issingleton = true)) ∧
    (∀ k, Raises (d.dist.singleton (.key k))) ∧ ∀ i, Raises (d.dist.singleton (.pos i)) := by
  refine ⟨⟨_, rfl, ?_⟩, fun k => ⟨_, rfl⟩, fun i => ⟨_, rfl⟩⟩
  rw [h.is, List.all_eq_true]
  constructor
  · intro hall k v hv; exact hall _ (Dict.get?_mem hv)
  · intro hall kv hkv; exact hall kv.1 kv.2 (Dict.get?_of_mem h.nodup hkv)

/-- The documented `singleton`: given the name of a variable, whether it is a scalar. -/
def C62_singleton_claim : Prop :=
  ∀ (fmt : Val → Str) (d : PD) (k : Str) (v : Val), d.WF fmt → Dict.get? d.vals k = some v →
    d.dist.singleton (.key k) = .ok v.issingleton

/-! ### selecting and moving axes -/

/-- The values of a variable irrespective of axes. -/
def Spec.flatAt (r : Dist) (k : Str) : Option Val := (Dict.get? r.vals k).map Val.flat

/-- The axis of a variable. -/
def Spec.axisOf (r : Dist) (k : Str) : Option ℕ := (Dict.get? r.dims k).join

/-- The number of values of a variable. -/
def Spec.sizeAt (d : PD) (k : Str) : ℕ :=
  match Dict.get? d.vals k with
  | some (.arr _ data) => data.length
  | _ => 1

theorem fixNone_arr {v : Val} (h : v ≠ .setnone) : v.fixNone = v := by
  cases v <;> simp_all [Val.fixNone]

/-- A variable of a non-empty well-formed distribution with its axis and size. -/
theorem PD.WF.axisAt {fmt : Val → Str} {d : PD} (h : d.WF fmt) {k : Str} {a : ℕ}
    (ha : d.axis k = some a) : ∃ s xs, s ≠ [] ∧ Dict.get? d.vals k = some (.arr s xs) ∧
      d.shape[a]? = some xs.length ∧ (0 < xs.length → xs.length = s.foldl max 0) := by
  have hd := join_eq_some.mp ha
  obtain ⟨v, hv⟩ := Dict.get?_of_mem_keys (h.dimKeys k (Dict.mem_keys_of_get? hd))
  rcases hs : v.issingleton with _ | _
  · obtain ⟨b, s, xs, rfl, hm, hb, hsh⟩ := h.array k v hv hs
    rw [hd] at hb
    simp only [Option.some.injEq] at hb
    subst hb
    refine ⟨s, xs, ?_, hv, hsh, hm⟩
    rintro rfl
    simp [Val.issingleton] at hs
  · rw [h.axis_scalar hv hs] at ha; simp at ha

/-- New arguments for the same variables. -/
structure Regroup (d : PD) (vals : Dict Str Val) (dims : Dict Str (Option ℕ)) (S : List ℕ) : Prop where
  ne : vals ≠ []
  nodup : vals.keys.Nodup
  from_ : ∀ k v, Dict.get? vals k = some v → Dict.get? d.vals k = some v
  dimNodup : dims.keys.Nodup
  dimKeys : ∀ k ∈ dims.keys, k ∈ vals.keys
  single : ∀ k ∈ vals.keys, d.axis k = none → (Dict.get? dims k).join = none
  array : ∀ k ∈ vals.keys, ∀ a, d.axis k = some a → ∃ b, Dict.get? dims k = some (some b) ∧
    S[b]? = d.shape[a]?
  cover : ∀ b < S.length, ∃ k, (Dict.get? dims k).join = some b

theorem Regroup.ready {fmt : Val → Str} {d : PD} (h : d.WF fmt) (hp : d.Pos) {vals : Dict Str Val}
    {dims : Dict Str (Option ℕ)} {S : List ℕ} (g : Regroup d vals dims S) :
    DistReady vals dims S ∧ fixVals vals = vals ∧ maxDim dims = S.length ∧
      ∀ k v, Dict.get? vals k = some v → (v.issingleton = true ↔ d.axis k = none) := by
  have hkind : ∀ k v, Dict.get? vals k = some v → (v.issingleton = true ↔ d.axis k = none) := by
    intro k v hv
    have hv' := g.from_ k v hv
    rcases hs : v.issingleton with _ | _
    · obtain ⟨_, _, a, _, _, _, ha, _⟩ := h.arrayAt hv' hs
      simp [ha]
    · simp [h.axis_scalar hv' hs]
  have harr : ∀ k v, Dict.get? vals k = some v → v.issingleton = false →
      ∃ s xs b, v = .arr s xs ∧ xs.length = s.foldl max 0 ∧ Dict.get? dims k = some (some b) ∧
        S[b]? = some xs.length := by
    intro k v hv hs
    obtain ⟨s, xs, a, hsne, rfl, hv', ha, _⟩ := h.arrayAt (g.from_ k v hv) hs
    obtain ⟨s', xs', _, hv2, hsh, hm⟩ := h.axisAt ha
    rw [hv'] at hv2
    obtain ⟨rfl, rfl⟩ := Val.arr.inj (Option.some.inj hv2)
    obtain ⟨b, hb, hS⟩ := g.array k (Dict.mem_keys_of_get? hv) a ha
    have hpos : 0 < xs.length := hp _ (List.mem_of_getElem? hsh)
    exact ⟨s, xs, b, rfl, hm hpos, hb, hS.trans hsh⟩
  have hfix : fixVals vals = vals := by
    apply fixVals_id
    rintro ⟨k, v⟩ hkv rfl
    obtain ⟨s, xs, b, h1, _⟩ := harr k _ (Dict.get?_of_mem g.nodup hkv) rfl
    simp at h1
  have haxis : ∀ k b, (Dict.get? dims k).join = some b → ∃ s xs, Dict.get? vals k = some (.arr s xs) ∧
      (Val.arr s xs).issingleton = false ∧ S[b]? = some xs.length := by
    intro k b hb
    have hb' := join_eq_some.mp hb
    obtain ⟨v, hv⟩ := Dict.get?_of_mem_keys (g.dimKeys k (Dict.mem_keys_of_get? hb'))
    rcases hs : v.issingleton with _ | _
    · obtain ⟨s, xs, c, rfl, _, hc, hS⟩ := harr k v hv hs
      rw [hb'] at hc
      simp only [Option.some.injEq] at hc
      subst hc
      exact ⟨s, xs, hv, hs, hS⟩
    · rw [g.single k (Dict.mem_keys_of_get? hv) ((hkind k v hv).mp hs)] at hb
      simp at hb
  have hmax : maxDim dims = S.length := by
    apply maxDim_eq
    · intro k b hkb
      obtain ⟨s, xs, _, _, hS⟩ := haxis k b (join_eq_some.mpr (Dict.get?_of_mem g.dimNodup hkb))
      by_contra hc
      rw [List.getElem?_eq_none (by omega)] at hS
      simp at hS
    · intro b hb
      obtain ⟨k, hk⟩ := g.cover b hb
      exact ⟨k, join_eq_some.mp hk⟩
  refine ⟨⟨g.ne, g.nodup, ?_, ?_, ?_, hmax.symm, ?_⟩, hfix, hmax, hkind⟩
  · intro k hk
    obtain ⟨v, hv⟩ := Dict.get?_of_mem_keys hk
    exact h.allowed k (Dict.mem_keys_of_get? (g.from_ k v hv))
  · rw [hfix]
    rintro ⟨k, v⟩ hkv
    have hv := Dict.get?_of_mem g.nodup hkv
    rcases hs : v.issingleton with _ | _
    · obtain ⟨s, xs, b, h1, h2, h3, _⟩ := harr k v hv hs
      exact Or.inr ⟨hs, s, xs, b, h1, h2, h3⟩
    · exact Or.inl ⟨hs, g.single k (Dict.mem_keys_of_get? hv) ((hkind k v hv).mp hs)⟩
  · rw [hfix]
    rintro ⟨k, v⟩ hkv hs s xs b hv hb
    simp only at hv hs hb
    obtain ⟨s', xs', c, h1, _, h3, hS⟩ := harr k v (Dict.get?_of_mem g.nodup hkv) hs
    rw [hv] at h1
    rw [hb] at h3
    simp only [Option.some.injEq] at h3
    rw [h3, (Val.arr.inj h1).2]; exact hS
  · rw [hfix, hmax]
    intro b hb
    obtain ⟨k, hk⟩ := g.cover b hb
    obtain ⟨s, xs, hv, hs, _⟩ := haxis k b hk
    exact ⟨(k, .arr s xs), Dict.get?_mem hv, hs, join_eq_some.mp hk⟩

/-- The result of the constructor on the same variables regrouped. -/
theorem Regroup.result {fmt : Val → Str} {d : PD} (h : d.WF fmt) (hp : d.Pos) {vals : Dict Str Val}
    {dims : Dict Str (Option ℕ)} {S : List ℕ} (g : Regroup d vals dims S) :
    ∃ r, distDims vals (some dims) = .ok r ∧ Spec.Consistent r ∧ r.vals.keys = vals.keys ∧
      (∀ k ∈ vals.keys, Spec.flatAt r k = d.values k) ∧
      (∀ k, Spec.axisOf r k = (Dict.get? dims k).join) ∧ r.shape = S ∧
      r.dims.keys.Nodup ∧ ∀ k ∈ r.dims.keys, k ∈ vals.keys := by
  obtain ⟨hr, hfix, hmax, hkind⟩ := g.ready h hp
  obtain ⟨r, h1, h2, h3, h4, h5, h6, h7, h8⟩ := distDims_ok hr
  rw [hfix] at h2 h3
  rw [hmax] at h2 h4
  have hkeys : r.vals.keys = vals.keys := by rw [h2, Dict.keys_map]
  have hget : ∀ k, Dict.get? r.vals k = (Dict.get? vals k).map (placeVal dims S.length k) := by
    intro k; rw [h2]; exact Dict.get?_map _ _ _
  have hdims : ∀ k, Dict.get? r.dims k = (Dict.get? dims k).or
        (match Dict.get? vals k with
         | some v => if v.issingleton then some none else none
         | none => none) := by
    intro k; rw [h3]; exact get?_foldl_dimsAfter vals dims g.nodup k
  have hlt : ∀ k a, Dict.get? dims k = some (some a) → a < S.length := by
    intro k a ha; rw [← hmax]; exact lt_maxDim ha
  have haxis : ∀ k, Spec.axisOf r k = (Dict.get? dims k).join := by
    intro k
    rw [Spec.axisOf, hdims]
    rcases hd : Dict.get? dims k with _ | o
    · simp only [Option.none_or]
      split
      · split <;> rfl
      · rfl
    · simp
  have hsing : ∀ k v, (placeVal dims S.length k v).issingleton = v.issingleton :=
    fun k v => issingleton_placeVal _ _ _ _ (hlt k)
  -- arrays of the arguments
  have harr : ∀ k v, Dict.get? vals k = some v → v.issingleton = false →
      ∃ s xs b, v = .arr s xs ∧ Dict.get? dims k = some (some b) ∧ S[b]? = some xs.length := by
    intro k v hv hs
    have hmem : (k, v) ∈ fixVals vals := by rw [hfix]; exact Dict.get?_mem hv
    rcases hr.entries _ hmem with ⟨hc, _⟩ | ⟨_, s, xs, b, hv', _, hb⟩
    · simp only at hc; rw [hs] at hc; simp at hc
    · exact ⟨s, xs, b, hv', hb, hr.sizes _ hmem hs s xs b hv' hb⟩
  refine ⟨r, h1, ⟨?_, ?_, ?_, by rw [h5, h4], ?_, by rw [h6, h5]⟩, hkeys, ?_, haxis, h5,
    by rw [h3]; exact nodup_foldl_dimsAfter _ _ g.dimNodup, ?_⟩
  · rw [hkeys]; exact g.nodup
  · intro k v hv
    rw [hget] at hv
    obtain ⟨u, hu, rfl⟩ := Option.map_eq_some_iff.mp hv
    rw [hdims, hu, hsing]
    rcases hs : u.issingleton with _ | _
    · obtain ⟨s, xs, b, _, hb, _⟩ := harr k u hu hs
      exact ⟨some b, by simp [hb], by simp⟩
    · have hj := g.single k (Dict.mem_keys_of_get? hu) ((hkind k u hu).mp hs)
      rcases hd : Dict.get? dims k with _ | _ | b
      · exact ⟨none, by simp [hs], by simp⟩
      · exact ⟨none, by simp, by simp⟩
      · rw [hd] at hj; simp at hj
  · intro k v a hv ha
    have ha' : Spec.axisOf r k = some a := join_eq_some.mpr ha
    rw [haxis, join_eq_some] at ha'
    rw [hget] at hv
    obtain ⟨u, hu, rfl⟩ := Option.map_eq_some_iff.mp hv
    have hs : u.issingleton = false := by
      by_contra hc
      have hj := g.single k (Dict.mem_keys_of_get? hu) ((hkind k u hu).mp (by simpa using hc))
      rw [ha'] at hj; simp at hj
    obtain ⟨s, xs, b, rfl, hb, hS⟩ := harr k u hu hs
    rw [ha'] at hb
    simp only [Option.some.injEq] at hb
    subst hb
    refine ⟨axisShape S.length a xs.length, xs, ?_, ?_, by rw [h5]; exact hS⟩
    · simp only [placeVal, hs, Bool.false_eq_true, if_false, ha']
    · rw [h4]; exact axisShape_oneAxis _ _ _ (hlt k a ha')
  · intro a ha
    rw [h4] at ha
    obtain ⟨k, hk⟩ := g.cover a ha
    have hk' := join_eq_some.mp hk
    obtain ⟨v, hv⟩ := Dict.get?_of_mem_keys (g.dimKeys k (Dict.mem_keys_of_get? hk'))
    exact ⟨k, placeVal dims S.length k v, by rw [hget, hv]; rfl, join_eq_some.mp ((haxis k).trans hk)⟩
  · intro k hk
    obtain ⟨v, hv⟩ := Dict.get?_of_mem_keys hk
    rw [Spec.flatAt, hget, hv, PD.values, g.from_ k v hv]
    simp only [Option.map_some, Option.some.injEq]
    exact flat_placeVal k v (hlt k)
  · intro k hk
    rw [h3] at hk
    rcases keys_foldl_dimsAfter vals dims k hk with hh | hh
    · exact g.dimKeys k hh
    · exact hh

/-- An axis that no variable lies on, below one that is used, is refused. -/
theorem distDims_gap {vals : Dict Str Val} {dims : Dict Str (Option ℕ)} (hn : vals.keys.Nodup)
    (hne : vals ≠ []) {k : Str} {a b : ℕ} (hk : Dict.get? dims k = some (some a)) (hb : b < a)
    (hgap : ∀ c ∈ vals.keys, Dict.get? dims c ≠ some (some b)) :
    Raises (distDims vals (some dims)) := by
  rcases hr : distDims vals (some dims) with e | r
  · exact ⟨e, rfl⟩
  · obtain ⟨_, _, _, _, _, hs, _⟩ := distDims_inv hn hne hr
    have hlen : r.shape.length = maxDim dims := by
      have := congrArg List.length hs
      simpa [length_foldl_shapeAfter] using this
    have hlt : b < maxDim dims := lt_trans hb (lt_maxDim hk)
    have h5 : ((fixVals vals).foldl (shapeAfter dims) (List.replicate (maxDim dims) none))[b]?
        = some (some (r.shape[b]'(by omega))) := by
      rw [← hs, List.getElem?_map, List.getElem?_eq_getElem]; rfl
    rcases foldl_shapeAfter_inv dims (fixVals vals) _ b _ h5 with h6 | ⟨kv, h6, _, _, _, _, h9, _⟩
    · rw [List.getElem?_replicate_of_lt hlt] at h6; simp at h6
    · refine absurd h9 (hgap kv.1 ?_)
      rw [← keys_fixVals]
      exact List.mem_map_of_mem h6

/-- Filtering the entries by key. -/
theorem keys_filter_asked (d : PD) (keys : List Str) :
    Dict.keys (d.vals.filter fun kv => decide (kv.1 ∈ lookKeys d.dist keys)) = Spec.asked d keys := by
  rw [← asked_lookKeys, PD.keylist]
  unfold Dict.keys
  rw [List.filter_map]
  rfl

/-- C62, selecting variables (`lookup` with `as_dist=True`): when the axes of the
variables asked for are the first `m`, the result is a consistent distribution of
exactly these variables, in the same order, on the same axes, with the same values
and the first `m` sizes. -/
theorem C62_select (fmt : Val → Str) (d : PD) (h : d.WF fmt) (hp : d.Pos) (keys : List Str) (m : ℕ)
    (hne : Spec.asked d keys ≠ [])
    (hlt : ∀ k ∈ Spec.asked d keys, ∀ a, d.axis k = some a → a < m)
    (hcov : ∀ a < m, ∃ k ∈ Spec.asked d keys, d.axis k = some a) :
    ∃ r, d.dist.lookupDist keys = .ok r ∧ Spec.Consistent r ∧ r.vals.keys = Spec.asked d keys ∧
      (∀ k ∈ Spec.asked d keys, Spec.flatAt r k = d.values k ∧ Spec.axisOf r k = d.axis k) ∧
      r.shape = d.shape.take m := by
  have hkeys := keys_filter_asked d keys
  set vals := d.vals.filter fun kv => decide (kv.1 ∈ lookKeys d.dist keys) with hvals
  have hsub : vals.Sublist d.vals := List.filter_sublist
  have hnd : (Dict.keys vals).Nodup := (hsub.map _).nodup h.nodup
  have hfrom : ∀ k v, Dict.get? vals k = some v → Dict.get? d.vals k = some v :=
    fun k v hv => Dict.get?_of_mem h.nodup (hsub.subset (Dict.get?_mem hv))
  have hdget : ∀ k ∈ Dict.keys vals,
      Dict.get? (vals.map fun kv => (kv.1, (Dict.get? d.dist.dims kv.1).join)) k = some (d.axis k) := by
    intro k hk
    obtain ⟨v, hv⟩ := Dict.get?_of_mem_keys hk
    rw [Dict.get?_map (fun k _ => (Dict.get? d.dist.dims k).join), hv]; rfl
  have hdkeys : Dict.keys (vals.map fun kv => (kv.1, (Dict.get? d.dist.dims kv.1).join))
      = Dict.keys vals := Dict.keys_map (fun k _ => (Dict.get? d.dist.dims k).join) vals
  have hml : m ≤ d.shape.length := by
    by_contra hc
    obtain ⟨k, _, hk⟩ := hcov d.shape.length (by omega)
    obtain ⟨_, xs, _, _, hsh, _⟩ := h.axisAt hk
    rw [List.getElem?_eq_none (le_refl _)] at hsh
    simp at hsh
  have g : Regroup d vals (vals.map fun kv => (kv.1, (Dict.get? d.dist.dims kv.1).join))
      (d.shape.take m) := by
    refine ⟨?_, hnd, hfrom, by rw [hdkeys]; exact hnd, by rw [hdkeys]; exact fun _ h => h, ?_, ?_, ?_⟩
    · rintro hc
      rw [hc] at hkeys
      exact hne hkeys.symm
    · intro k hk ha
      rw [hdget k hk, ha]; rfl
    · intro k hk a ha
      refine ⟨a, by rw [hdget k hk, ha], ?_⟩
      rw [hkeys] at hk
      rw [List.getElem?_take_of_lt (hlt k hk a ha)]
    · intro b hb
      rw [List.length_take] at hb
      obtain ⟨k, hk, ha⟩ := hcov b (by omega)
      rw [← hkeys] at hk
      exact ⟨k, by rw [hdget k hk, ha]; rfl⟩
  obtain ⟨r, h1, h2, h3, h4, h5, h6, _⟩ := g.result h hp
  refine ⟨r, h1, h2, h3.trans hkeys, ?_, h6⟩
  intro k hk
  rw [← hkeys] at hk
  refine ⟨h4 k hk, ?_⟩
  rw [h5, hdget k hk]; rfl

/-- C62: selecting variables that leave an axis unused below one that is used is
refused. -/
theorem C62_select_gap_raises (fmt : Val → Str) (d : PD) (h : d.WF fmt) (keys : List Str)
    (k : Str) (a b : ℕ) (hk : k ∈ Spec.asked d keys) (ha : d.axis k = some a) (hb : b < a)
    (hgap : ∀ k' ∈ Spec.asked d keys, d.axis k' ≠ some b) : Raises (d.dist.lookupDist keys) := by
  have hkeys := keys_filter_asked d keys
  unfold Dist.lookupDist
  set vals := d.vals.filter fun kv => decide (kv.1 ∈ lookKeys d.dist keys) with hvals
  have hsub : vals.Sublist d.vals := List.filter_sublist
  have hnd : (Dict.keys vals).Nodup := (hsub.map _).nodup h.nodup
  have hdget : ∀ k ∈ Dict.keys vals,
      Dict.get? (vals.map fun kv => (kv.1, (Dict.get? d.dist.dims kv.1).join)) k = some (d.axis k) := by
    intro k hk
    obtain ⟨v, hv⟩ := Dict.get?_of_mem_keys hk
    rw [Dict.get?_map (fun k _ => (Dict.get? d.dist.dims k).join), hv]; rfl
  refine distDims_gap (k := k) (a := a) (b := b) hnd ?_ ?_ hb ?_
  · intro hc
    have hc' : vals = [] := hc
    rw [← hkeys, hc'] at hk
    simp at hk
  · rw [← hkeys] at hk
    rw [hdget k hk, ha]
  · intro c hc
    rw [hdget c hc]
    rw [hkeys] at hc
    intro he
    exact hgap c hc (Option.some.inj he)

/-- A change of dimensions that makes sense for a distribution: only its variables,
an axis for every array variable and for no scalar, arrays put on one axis agree in
size, and no axis is left out below one that is used. -/
structure Spec.Redim (d : PD) (dims : Dict Str (Option ℕ)) : Prop where
  ne : dims ≠ []
  nodup : dims.keys.Nodup
  known : ∀ k ∈ dims.keys, k ∈ d.keylist
  array : ∀ k a, d.axis k = some a → ∃ b, Dict.get? dims k = some (some b)
  scalar : ∀ k ∈ d.keylist, d.axis k = none → (Dict.get? dims k).join = none
  agree : ∀ k k' b, Dict.get? dims k = some (some b) → Dict.get? dims k' = some (some b) →
    Spec.sizeAt d k = Spec.sizeAt d k'
  cover : ∀ k a, Dict.get? dims k = some (some a) → ∀ b < a, ∃ k', Dict.get? dims k' = some (some b)

theorem redimCheck_ok {fmt : Val → Str} {d : PD} (h : d.WF fmt) {dims : Dict Str (Option ℕ)}
    (g : Spec.Redim d dims) : d.dist.vals.keys.mapM (redimCheck d.dist dims)
      = .ok (d.dist.vals.keys.map fun _ => ()) := by
  apply mapM_ok
  intro k hk
  obtain ⟨v, hv⟩ := Dict.get?_of_mem_keys hk
  rcases hs : v.issingleton with _ | _
  · obtain ⟨_, _, a, _, _, _, ha, hd⟩ := h.arrayAt hv hs
    obtain ⟨b, hb⟩ := g.array k a ha
    have hd' : Dict.get? d.dist.dims k = some (some a) := hd
    simp [redimCheck, dimOf, hd', bind, Except.bind, Dict.mem_keys_of_get? hb, pure, Except.pure]
  · have hd' : Dict.get? d.dist.dims k = some none := (h.single k v hv hs).1
    have hj := g.scalar k hk (h.axis_scalar hv hs)
    rcases hg : Dict.get? dims k with _ | _ | b
    · simp [redimCheck, dimOf, hd', bind, Except.bind, hg, pure, Except.pure]
    · simp [redimCheck, dimOf, hd', bind, Except.bind, hg, pure, Except.pure]
    · rw [hg] at hj; simp at hj

theorem lt_maxDim_iff {dims : Dict Str (Option ℕ)} {b : ℕ} (hb : b < maxDim dims)
    (hn : dims.keys.Nodup) : ∃ k a, Dict.get? dims k = some (some a) ∧ b ≤ a := by
  by_contra hc
  push Not at hc
  have := maxDim_le dims b (fun k a hka => hc k a (Dict.get?_of_mem hn hka))
  omega

theorem redim_ok {fmt : Val → Str} {d : PD} (h : d.WF fmt) (hp : d.Pos)
    {dims : Dict Str (Option ℕ)} (g : Spec.Redim d dims) :
    ∃ r, d.dist.redim dims = .ok r ∧ Spec.Consistent r ∧ r.vals.keys = dims.keys ∧
      (∀ k ∈ dims.keys, Spec.flatAt r k = d.values k) ∧
      (∀ k, Spec.axisOf r k = (Dict.get? dims k).join) ∧
      r.dims.keys.Nodup ∧ ∀ k ∈ r.dims.keys, k ∈ dims.keys := by
  classical
  have hval : ∀ k ∈ dims.keys, ∃ v, Dict.get? d.vals k = some v :=
    fun k hk => Dict.get?_of_mem_keys (g.known k hk)
  let f : Str → Val := fun k => (Dict.get? d.vals k).getD .other
  have hf : ∀ k ∈ dims.keys, Dict.get? d.vals k = some (f k) := by
    intro k hk
    obtain ⟨v, hv⟩ := hval k hk
    simp [f, hv]
  have hm : (dims.keys.mapM fun k => do return (k, ← getVal d.dist.vals k) : Py (List (Str × Val)))
      = .ok (dims.keys.map fun k => (k, f k)) := by
    apply mapM_ok
    intro k hk
    have : Dict.get? d.dist.vals k = some (f k) := hf k hk
    simp [getVal, this, bind, Except.bind, pure, Except.pure]
  set vals : Dict Str Val := dims.keys.map fun k => (k, f k) with hvals
  have hkeys : vals.keys = dims.keys := by
    rw [hvals]; simp [Dict.keys, List.map_map, Function.comp_def]
  have hnd : vals.keys.Nodup := by rw [hkeys]; exact g.nodup
  have hfrom : ∀ k v, Dict.get? vals k = some v → Dict.get? d.vals k = some v := by
    intro k v hv
    have := Dict.get?_mem hv
    rw [hvals] at this
    obtain ⟨k', hk', he⟩ := List.mem_map.mp this
    simp only [Prod.mk.injEq] at he
    obtain ⟨rfl, rfl⟩ := he
    exact hf k' hk'
  -- every new axis holds some variable
  have hcov : ∀ b < maxDim dims, ∃ k, Dict.get? dims k = some (some b) := by
    intro b hb
    obtain ⟨k, a, hk, hle⟩ := lt_maxDim_iff hb g.nodup
    rcases Nat.lt_or_ge b a with hlt | hge
    · exact g.cover k a hk b hlt
    · have : b = a := by omega
      subst this; exact ⟨k, hk⟩
  let sz : ℕ → ℕ := fun b => if hb : ∃ k, Dict.get? dims k = some (some b) then
    Spec.sizeAt d hb.choose else 0
  have hsz : ∀ k b, Dict.get? dims k = some (some b) → sz b = Spec.sizeAt d k := by
    intro k b hk
    have hb : ∃ k, Dict.get? dims k = some (some b) := ⟨k, hk⟩
    simp only [sz, dif_pos hb]
    exact g.agree _ _ b hb.choose_spec hk
  have hsize : ∀ k a, d.axis k = some a → d.shape[a]? = some (Spec.sizeAt d k) := by
    intro k a ha
    obtain ⟨s, xs, _, hv, hsh, _⟩ := h.axisAt ha
    rw [hsh, Spec.sizeAt, hv]
  have hgroup : Regroup d vals dims ((List.range (maxDim dims)).map sz) := by
    refine ⟨?_, hnd, hfrom, g.nodup, by rw [hkeys]; exact fun _ h => h, ?_, ?_, ?_⟩
    · intro hc
      apply g.ne
      have : dims.keys = [] := by rw [← hkeys, hc]; rfl
      simpa [Dict.keys] using this
    · intro k hk ha
      rw [hkeys] at hk
      exact g.scalar k (g.known k hk) ha
    · intro k hk a ha
      obtain ⟨b, hb⟩ := g.array k a ha
      refine ⟨b, hb, ?_⟩
      rw [hsize k a ha, List.getElem?_map, List.getElem?_range (lt_maxDim hb)]
      simp [hsz k b hb]
    · intro b hb
      obtain ⟨k, hk⟩ := hcov b (by simpa using hb)
      exact ⟨k, by rw [hk]; rfl⟩
  obtain ⟨r, h1, h2, h3, h4, h5, h6, h7, h8⟩ := hgroup.result h hp
  refine ⟨r, ?_, h2, h3.trans hkeys, ?_, h5, h7, by rw [← hkeys]; exact h8⟩
  · unfold Dist.redim
    rw [redimCheck_ok h g]
    simp only [bind, Except.bind] at hm ⊢
    rw [hm]; exact h1
  · intro k hk
    exact h4 k (by rw [hkeys]; exact hk)

/-- C62, `redim` of a distribution: a sensible change of dimensions gives a
consistent distribution whose variables are those named, in that order, on the axes
named, with the same values. -/
theorem C62_redim (fmt : Val → Str) (d : PD) (h : d.WF fmt) (hp : d.Pos)
    (dims : Dict Str (Option ℕ)) (g : Spec.Redim d dims) :
    ∃ r, d.dist.redim dims = .ok r ∧ Spec.Consistent r ∧ r.vals.keys = dims.keys ∧
      (∀ k ∈ dims.keys, Spec.flatAt r k = d.values k ∧ Spec.axisOf r k = (Dict.get? dims k).join) := by
  obtain ⟨r, h1, h2, h3, h4, h5, _⟩ := redim_ok h hp g
  exact ⟨r, h1, h2, h3, fun k hk => ⟨h4 k hk, h5 k⟩⟩

/-- C62: dimensions that leave out an array variable, give a scalar an axis, name
something that is not a variable, or skip an axis are refused. -/
theorem C62_redim_raises (fmt : Val → Str) (d : PD) (h : d.WF fmt) (dims : Dict Str (Option ℕ))
    (hn : dims.keys.Nodup)
    (hbad : (∃ k a, d.axis k = some a ∧ k ∉ dims.keys) ∨
      (∃ k ∈ d.keylist, d.axis k = none ∧ ∃ b, Dict.get? dims k = some (some b)) ∨
      (∃ k ∈ dims.keys, k ∉ d.keylist) ∨
      (∃ k a b, Dict.get? dims k = some (some a) ∧ b < a ∧ ∀ k', Dict.get? dims k' ≠ some (some b))) :
    Raises (d.dist.redim dims) := by
  unfold Dist.redim
  rcases hc : d.dist.vals.keys.mapM (redimCheck d.dist dims) with e | u
  · exact ⟨e, rfl⟩
  rcases hm : (dims.keys.mapM fun k => do return (k, ← getVal d.dist.vals k) : Py (List (Str × Val)))
    with e | vals
  · exact ⟨e, rfl⟩
  have hgo : (∀ k ∈ dims.keys, k ∈ d.keylist) ∧ Dict.keys vals = dims.keys := by
    have key : ∀ (ks : List Str) (vs : List (Str × Val)),
        (ks.mapM fun k => do return (k, ← getVal d.dist.vals k) : Py (List (Str × Val))) = .ok vs →
        (∀ k ∈ ks, k ∈ d.keylist) ∧ Dict.keys vs = ks := by
      intro ks
      induction ks with
      | nil =>
        intro vs hv
        have : vs = [] := by simpa [pure, Except.pure] using hv.symm
        subst this; simp
      | cons k ks ih =>
        intro vs hv
        rw [List.mapM_cons] at hv
        rcases hg : Dict.get? d.dist.vals k with _ | v
        · simp [getVal, hg, bind, Except.bind] at hv
        · rcases ht : (ks.mapM fun k => do return (k, ← getVal d.dist.vals k) : Py (List (Str × Val)))
            with e | ws
          · simp only [bind, Except.bind] at hv ht
            simp [getVal, hg, pure, Except.pure] at hv ht
            rw [ht] at hv; simp at hv
          · obtain ⟨i1, i2⟩ := ih ws ht
            simp only [bind, Except.bind] at hv ht
            simp [getVal, hg, pure, Except.pure] at hv ht
            rw [ht] at hv
            simp only [Except.ok.injEq] at hv
            subst hv
            refine ⟨?_, by simp [i2]⟩
            intro k' hk'
            rcases List.mem_cons.mp hk' with rfl | hk'
            · exact Dict.mem_keys_of_get? hg
            · exact i1 k' hk'
    exact key _ _ hm
  show Raises (distDims vals (some dims))
  rcases hbad with ⟨k, a, ha, hk⟩ | ⟨k, hk, ha, b, hb⟩ | ⟨k, hk, hk'⟩ | ⟨k, a, b, hk, hba, hgap⟩
  · exfalso
    have hd := join_eq_some.mp ha
    have hmem : k ∈ d.dist.vals.keys := h.dimKeys k (Dict.mem_keys_of_get? hd)
    have hd' : Dict.get? d.dist.dims k = some (some a) := hd
    obtain ⟨e, he⟩ := mapM_refuses (f := redimCheck d.dist dims) hmem
      ⟨.assertion, by simp [redimCheck, dimOf, hd', bind, Except.bind, hk]⟩
    rw [he] at hc; cases hc
  · exfalso
    obtain ⟨v, hv⟩ := Dict.get?_of_mem_keys hk
    have hs : v.issingleton = true := by
      by_contra hcs
      obtain ⟨_, _, a, _, _, _, ha', _⟩ := h.arrayAt hv (by simpa using hcs)
      rw [ha] at ha'; simp at ha'
    have hd' : Dict.get? d.dist.dims k = some none := (h.single k v hv hs).1
    obtain ⟨e, he⟩ := mapM_refuses (f := redimCheck d.dist dims) hk
      ⟨.assertion, by simp [redimCheck, dimOf, hd', bind, Except.bind, hb]⟩
    rw [he] at hc; cases hc
  · exact absurd (hgo.1 k hk) hk'
  · refine distDims_gap (k := k) (a := a) (b := b) (by rw [hgo.2]; exact hn) ?_ hk hba
      (fun c _ => hgap c)
    intro hv
    have := Dict.mem_keys_of_get? hk
    rw [← hgo.2, hv] at this
    simp at this

/-! ### probability distributions -/

/-- The documented `redim` of a probability distribution: moves the axes of the
probabilities along with those of the variables. -/
def C62_pd_claim : Prop :=
  ∀ (fmt : Val → Str) (d : PD) (dims : Dict Str (Option ℕ)), d.WF fmt → d.Pos → Spec.Redim d dims →
    ∃ r, d.redim fmt dims = .ok r ∧ r.WF fmt ∧
      (∀ k, r.axis k = (Dict.get? dims k).join) ∧
      ∀ i j, Spec.Agree d r i j → r.at j = d.at i

/-- C62: `redim` of a probability distribution with an array variable always raises. -/
theorem C62_pd_raises (fmt : Val → Str) (d : PD) (h : d.WF fmt) (dims : Dict Str (Option ℕ))
    (k : Str) (a : ℕ) (ha : d.axis k = some a) : Raises (d.redim fmt dims) := by
  obtain ⟨s, xs, hs, hv, _⟩ := h.axisAt ha
  have his : d.dist.issingleton = false := by
    rw [h.is, List.all_eq_false]
    exact ⟨_, Dict.get?_mem hv, by simpa [Val.issingleton] using hs⟩
  unfold PD.redim
  rcases hr : d.dist.redim dims with e | r
  · exact ⟨e, rfl⟩
  · exact ⟨.attribute, by simp [his, bind, Except.bind]⟩

/-- C62: a distribution of scalars given `None` for each of its variables keeps
values, names and probability, with the variables in the order given. -/
theorem C62_pd_scalars_partial (fmt : Val → Str) (d : PD) (h : d.WF fmt)
    (dims : Dict Str (Option ℕ)) (hs : ∀ k, d.axis k = none) (hn : dims.keys.Nodup)
    (hk : ∀ k, k ∈ dims.keys ↔ k ∈ d.keylist) (hnone : ∀ kv ∈ dims, kv.2 = none) :
    ∃ r, d.redim fmt dims = .ok r ∧ r.WF fmt ∧ r.keylist = dims.keys ∧
      (∀ k, r.values k = d.values k) ∧ (∀ k, r.axis k = none) ∧ r.marg = d.marg ∧ r.cond = d.cond ∧
      r.prob = d.prob ∧ r.pscale = d.pscale := by
  have hsing : ∀ k v, Dict.get? d.vals k = some v → v.issingleton = true := by
    intro k v hv
    by_contra hc
    obtain ⟨_, _, a, _, _, _, ha, _⟩ := h.arrayAt hv (by simpa using hc)
    rw [hs] at ha; simp at ha
  have hshape : d.shape = [] := by
    rw [← List.length_eq_zero_iff, h.rank]
    by_contra hc
    obtain ⟨k, hk⟩ := h.cover 0 (by omega)
    rw [hs] at hk; simp at hk
  have hp : d.Pos := by intro n hn; rw [hshape] at hn; simp at hn
  have hdnone : ∀ k, (Dict.get? dims k).join = none := by
    intro k
    rcases hg : Dict.get? dims k with _ | o
    · rfl
    · have := hnone _ (Dict.get?_mem hg)
      simp only at this
      rw [this]; rfl
  have hnoax : ∀ k a, Dict.get? dims k ≠ some (some a) := by
    intro k a hc
    have := hdnone k
    rw [hc] at this; simp at this
  have g : Spec.Redim d dims := by
    refine ⟨?_, hn, fun k => (hk k).mp, ?_, fun k _ _ => hdnone k, ?_, ?_⟩
    · rintro rfl
      obtain ⟨⟨k, v⟩, l, hd⟩ := List.exists_cons_of_ne_nil h.ne
      have : k ∈ d.keylist := by simp [PD.keylist, hd]
      exact absurd ((hk k).mpr this) (by simp)
    · intro k a ha; rw [hs] at ha; simp at ha
    · intro k k' b hb; exact absurd hb (hnoax k b)
    · intro k a ha; exact absurd ha (hnoax k a)
  obtain ⟨q, hq, hqc, hqk, hqv, hqx, hqn, hqs⟩ := redim_ok h hp g
  have hqget : ∀ k, Dict.get? q.vals k = Dict.get? d.vals k := by
    intro k
    by_cases hkd : k ∈ dims.keys
    · have hf := hqv k hkd
      obtain ⟨v, hv⟩ := Dict.get?_of_mem_keys ((hk k).mp hkd)
      obtain ⟨u, hu⟩ := Dict.get?_of_mem_keys (d := q.vals) (k := k) (by rw [hqk]; exact hkd)
      rw [Spec.flatAt, PD.values, hu, hv] at hf
      have hfl : u.flat = v.flat := by simpa using hf
      have hus : u.issingleton = true := by
        obtain ⟨o, ho, hiff⟩ := hqc.entry k u hu
        refine hiff.mp ?_
        have := hqx k
        rw [Spec.axisOf, ho, hdnone k] at this
        simpa using this
      have hfs : ∀ w : Val, w.issingleton = true → w.flat = w := by
        intro w hw
        rcases w with x | x | x | _ | ⟨s, xs⟩ | _ <;> try rfl
        rcases s with _ | ⟨n, s⟩
        · rfl
        · simp [Val.issingleton] at hw
      rw [hfs u hus, hfs v (hsing k v hv)] at hfl
      rw [hu, hv, hfl]
    · rw [Dict.get?_eq_none.mpr (by rw [hqk]; exact hkd),
        Dict.get?_eq_none.mpr (fun hc => hkd ((hk k).mpr hc))]
  have hqdims : ∀ k, (Dict.get? q.dims k).join = none := fun k => (hqx k).trans (hdnone k)
  have hb : BuildArgs fmt d.marg d.cond q.vals q.dims [] := by
    refine ⟨?_, hqc.nodup, ?_, h.margSide, h.condSide, h.disj, ?_, hqn, by rw [hqk]; exact hqs, ?_, ?_, by simp⟩
    · intro hc
      rw [hc] at hqk
      exact g.ne (by simpa [Dict.keys] using hqk.symm)
    · intro k hk'
      rw [hqk, hk] at hk'
      exact h.allowed k hk'
    · intro k
      rw [hqk, hk]; exact h.keys k
    · intro k v hv hsv
      rw [hqget] at hv
      exact ⟨hqdims k, (h.single k v hv hsv).2⟩
    · intro k v hv hsv
      rw [hqget] at hv
      rw [hsing k v hv] at hsv; simp at hsv
  obtain ⟨r, h1, h2, h3, h4, h5, h6, h7, h8, h9⟩ := pdInit_ok hb d.prob (h.probShape.trans hshape)
    d.pscale.spec d.pscale h.stable
  have his : d.dist.issingleton = true := by
    rw [h.is, List.all_eq_true]
    intro kv hkv
    exact hsing kv.1 kv.2 (Dict.get?_of_mem h.nodup hkv)
  have hrv : ∀ k, Dict.get? r.vals k = Dict.get? d.vals k := by
    intro k
    rw [h5, Dict.get?_map, hqget]
    rcases hv : Dict.get? d.vals k with _ | v
    · rfl
    · simp [placeVal, hsing k v hv]
  refine ⟨r, ?_, h2, ?_, ?_, ?_, h3, h4, h8, h9⟩
  · unfold PD.redim
    rw [hq, h.name]
    simp only [bind, Except.bind, his]
    exact h1
  · rw [PD.keylist]
    show Dict.keys r.vals = _
    rw [h5, Dict.keys_map]; exact hqk
  · intro k; rw [PD.values, hrv, PD.values]
  · intro k; rw [h6, hqdims]

/-! ### instances -/

/-- p(c=1, x, y, z) with x and y on one axis and z on another. -/
noncomputable def mixPD : PD :=
  ⟨"c=1,x,y,z".toList,
   [(['c'], "c=1".toList), (['x'], ['x']), (['y'], ['y']), (['z'], ['z'])], [],
   ⟨[(['c'], .scalar 1), (['x'], .arr [3, 1] [0, 1, 2]), (['y'], .arr [3, 1] [0, 1, 4]),
     (['z'], .arr [1, 2] [5, 7])],
    [(['c'], none), (['x'], some 0), (['y'], some 0), (['z'], some 1)], 2, [3, 3, 2], [3, 2], 6,
    [true, false, false, false], false⟩,
   ⟨[3, 2], fun _ => 1 / 6⟩, .lin 1⟩

theorem mixPD_wf : mixPD.WF (fun _ => ['1']) := by
  refine PD.wf_of_check ?_ rfl evalPscale_one
  unfold PD.check
  simp only [Bool.and_eq_true]
  refine ⟨⟨⟨⟨⟨⟨⟨⟨⟨⟨⟨⟨⟨⟨⟨⟨⟨⟨?_, ?_⟩, ?_⟩, ?_⟩, ?_⟩, ?_⟩, ?_⟩, ?_⟩, ?_⟩, ?_⟩, ?_⟩, ?_⟩, ?_⟩, ?_⟩, ?_⟩,
    ?_⟩, ?_⟩, ?_⟩, ?_⟩
  all_goals rfl

theorem mixPD_pos : mixPD.Pos := by
  intro n hn
  have : n ∈ [3, 2] := hn
  simp at this
  omega

theorem mixPD_axis {k : Str} {a : ℕ} (h : mixPD.axis k = some a) :
    k = ['x'] ∧ a = 0 ∨ k = ['y'] ∧ a = 0 ∨ k = ['z'] ∧ a = 1 := by
  have hm : (k, some a) ∈ [(['c'], none), (['x'], some 0), (['y'], some 0), (['z'], some 1)] :=
    Dict.get?_mem (join_eq_some.mp h)
  simpa using hm

/-- The axes exchanged, the scalar left out. -/
def swapDims : Dict Str (Option ℕ) := [(['z'], some 0), (['y'], some 1), (['x'], some 1)]

theorem swapDims_get {k : Str} {a : ℕ} (h : Dict.get? swapDims k = some (some a)) :
    k = ['z'] ∧ a = 0 ∨ k = ['y'] ∧ a = 1 ∨ k = ['x'] ∧ a = 1 := by
  have hm : (k, some a) ∈ [(['z'], some 0), (['y'], some 1), (['x'], some 1)] := Dict.get?_mem h
  simpa using hm

theorem swapDims_redim : Spec.Redim mixPD swapDims where
  ne := by decide
  nodup := by decide
  known := by decide
  array := by
    intro k a ha
    rcases mixPD_axis ha with ⟨rfl, _⟩ | ⟨rfl, _⟩ | ⟨rfl, _⟩
    · exact ⟨1, rfl⟩
    · exact ⟨1, rfl⟩
    · exact ⟨0, rfl⟩
  scalar := by
    intro k hk ha
    have hk' : k ∈ [['c'], ['x'], ['y'], ['z']] := hk
    simp only [List.mem_cons, List.not_mem_nil, or_false] at hk'
    rcases hk' with rfl | rfl | rfl | rfl
    · rfl
    all_goals exact absurd ha (by decide)
  agree := by
    intro k k' b h1 h2
    rcases swapDims_get h1 with ⟨rfl, rfl⟩ | ⟨rfl, rfl⟩ | ⟨rfl, rfl⟩ <;>
    rcases swapDims_get h2 with ⟨rfl, h⟩ | ⟨rfl, h⟩ | ⟨rfl, h⟩ <;> first | rfl | simp at h
  cover := by
    intro k a h1 b hb
    have : b = 0 := by
      rcases swapDims_get h1 with ⟨_, rfl⟩ | ⟨_, rfl⟩ | ⟨_, rfl⟩ <;> omega
    subst this
    exact ⟨['z'], rfl⟩

example : ∃ r, mixPD.dist.redim swapDims = .ok r ∧ Spec.Consistent r ∧
    Spec.axisOf r ['x'] = some 1 := by
  obtain ⟨r, h1, h2, _, h3⟩ := C62_redim _ mixPD mixPD_wf mixPD_pos swapDims swapDims_redim
  exact ⟨r, h1, h2, (h3 ['x'] (by decide)).2⟩

/-- The array y is not given an axis. -/
example : Raises (mixPD.dist.redim [(['z'], some 0), (['x'], some 1)]) :=
  C62_redim_raises _ mixPD mixPD_wf _ (by decide) (Or.inl ⟨['y'], 0, rfl, by decide⟩)

theorem C62_pd_claim_fails : ¬ C62_pd_claim := by
  intro h
  obtain ⟨r, h1, _⟩ := h _ mixPD swapDims mixPD_wf mixPD_pos swapDims_redim
  obtain ⟨e, he⟩ := C62_pd_raises _ mixPD mixPD_wf swapDims ['x'] 0 rfl
  rw [he] at h1
  cases h1

/-- p(a=1, b=1). -/
noncomputable def scalarPD : PD :=
  ⟨"a=1|b=1".toList, [(['a'], "a=1".toList)], [(['b'], "b=1".toList)],
   ⟨[(['a'], .scalar 1), (['b'], .scalar 1)], [(['a'], none), (['b'], none)], 0, [], [], 1,
    [true, true], true⟩, ⟨[], fun _ => 1 / 2⟩, .lin 1⟩

example : ∃ r, scalarPD.redim (fun _ => ['1']) [(['b'], none), (['a'], none)] = .ok r ∧
    r.keylist = [['b'], ['a']] ∧ r.prob = scalarPD.prob := by
  have hwf : scalarPD.WF (fun _ => ['1']) :=
    PD.wf_of_check rfl rfl (by simp [scalarPD, PScale.spec, evalPscale_one])
  obtain ⟨r, h1, _, h2, _, _, _, _, h3, _⟩ := C62_pd_scalars_partial _ scalarPD hwf
    [(['b'], none), (['a'], none)]
    (by
      intro k
      simp only [PD.axis, PD.dims, scalarPD, Dict.get?]
      split_ifs <;> rfl)
    (by decide)
    (by
      intro k
      show k ∈ [['b'], ['a']] ↔ k ∈ [['a'], ['b']]
      simp only [List.mem_cons, List.not_mem_nil, or_false]
      exact or_comm)
    (by decide)
  exact ⟨r, h1, h2, h3⟩

/-- Every accepted change of dimensions gives a consistent distribution. -/
def C62_redim_claim : Prop :=
  ∀ (fmt : Val → Str) (d : PD) (dims : Dict Str (Option ℕ)) (r : Dist), d.WF fmt → d.Pos →
    dims.keys.Nodup → d.dist.redim dims = .ok r → Spec.Consistent r

/-- C62: arrays of different sizes may be put on one axis. -/
theorem C62_redim_claim_fails : ¬ C62_redim_claim := by
  intro h
  have hok : ∃ r, mixPD.dist.redim [(['x'], some 0), (['y'], some 0), (['z'], some 0)] = .ok r ∧
      r.vals = [(['x'], .arr [3] [0, 1, 2]), (['y'], .arr [3] [0, 1, 4]), (['z'], .arr [2] [5, 7])] ∧
      r.dims = [(['x'], some 0), (['y'], some 0), (['z'], some 0)] ∧ r.shape = [2] :=
    ⟨_, rfl, rfl, rfl, rfl⟩
  obtain ⟨r, h1, hv, hd, hs⟩ := hok
  have hc := h _ mixPD _ r mixPD_wf mixPD_pos (by decide) h1
  obtain ⟨s, xs, h2, _, h3⟩ := hc.array ['x'] (.arr [3] [0, 1, 2]) 0 (by rw [hv]; rfl) (by rw [hd]; rfl)
  rw [hs] at h3
  obtain ⟨_, rfl⟩ := Val.arr.inj h2
  simp at h3

/-- All variables: the scalar, the pair sharing an axis, the remaining array. -/
example : mixPD.dist.lookup [] = .ok [(['c'], .single (.scalar 1)),
    ("x,y".toList, .tuple [[0, 1, 2], [0, 1, 4]]), (['z'], .flat [5, 7])] := rfl

example : mixPD.dist.lookup [['z'], ['y']] = .ok [(['y'], .flat [0, 1, 4]), (['z'], .flat [5, 7])] := rfl

example : ∃ (gs : List (List Str)) (r : Dict Str LookVal), mixPD.dist.lookup [] = .ok r ∧
    r.keys = gs.map [','].intercalate ∧ gs.flatten.Perm [['c'], ['x'], ['y'], ['z']] := by
  obtain ⟨gs, r, h1, h2, _, h3, _⟩ := C62_lookup _ mixPD mixPD_wf []
  exact ⟨gs, r, h1, h2, h3⟩

example : ∃ r, mixPD.dist.lookupDist [['c'], ['y']] = .ok r ∧ Spec.Consistent r ∧ r.shape = [3] := by
  obtain ⟨r, h1, h2, _, _, h3⟩ := C62_select _ mixPD mixPD_wf mixPD_pos [['c'], ['y']] 1
    (by decide)
    (by
      intro k hk a ha
      have hk' : k ∈ [['c'], ['y']] := hk
      rcases mixPD_axis ha with ⟨rfl, rfl⟩ | ⟨rfl, rfl⟩ | ⟨rfl, rfl⟩
      · omega
      · omega
      · simp at hk')
    (by
      intro a ha
      have : a = 0 := by omega
      subst this
      exact ⟨['y'], by decide, rfl⟩)
  exact ⟨r, h1, h2, h3⟩

/-- The variable on the second axis alone. -/
example : Raises (mixPD.dist.lookupDist [['z']]) :=
  C62_select_gap_raises _ mixPD mixPD_wf [['z']] ['z'] 1 0 (by decide) rfl (by decide) (by decide)

theorem C62_singleton_claim_fails : ¬ C62_singleton_claim := by
  intro h
  have := h _ mixPD ['c'] (.scalar 1) mixPD_wf rfl
  simp [Dist.singleton] at this

end Probayes
