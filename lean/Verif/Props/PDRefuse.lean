/-
C20: which products are refused.
-/
import Verif.Props.PDProduct
import Verif.Props.PDRekey

namespace Probayes

/-- Factors that must not be multiplied. -/
inductive Spec.Clash (args : List PD) : Prop where
  /-- two factors have the same marginal variable -/
  | marg (i j : ℕ) (a b : PD) (k : Str) (hij : i < j) (ha : args[i]? = some a)
      (hb : args[j]? = some b) (hka : k ∈ a.marg.keys) (hkb : k ∈ b.marg.keys)
  /-- two factors have conditions that no factor meets, and not the same ones -/
  | cond (a b : PD) (k k' : Str) (ha : a ∈ args) (hb : b ∈ args) (hk : k ∈ a.cond.keys)
      (hu : Spec.Unmet args k) (hk' : k' ∈ b.cond.keys) (hu' : Spec.Unmet args k')
      (hne : k ∉ b.cond.keys)
  /-- a condition of one is a marginal variable of the other, with other values -/
  | value (a b : PD) (k : Str) (ha : a ∈ args) (hb : b ∈ args) (hk : k ∈ a.cond.keys)
      (hk' : k ∈ b.marg.keys) (hne : a.values k ≠ b.values k)

/-- C20 as intended. -/
def C20_claim : Prop :=
  ∀ (fmt : Val → Str) (args : List PD), (∀ a ∈ args, a.WF fmt) → Spec.Clash args →
    Raises (product fmt args)

/-- Lists of values told apart by `np.allclose`: of different lengths (neither
one), or with an entry differing by more than the tolerance. -/
def Spec.Apart (x y : List ℚ) : Prop :=
  x.length ≠ y.length ∧ x.length ≠ 1 ∧ y.length ≠ 1 ∨
  x.length = y.length ∧ ∃ (i : ℕ) (u v : ℚ), x[i]? = some u ∧ y[i]? = some v ∧
    1 / 10 ^ 8 + 1 / 10 ^ 5 * |v| < |u - v|

section
variable {fmt : Val → Str} {args : List PD}

theorem mapM_mem {α β : Type _} {f : α → Py β} {l : List α} {ys : List β} (h : l.mapM f = .ok ys)
    {y : β} (hy : y ∈ ys) : ∃ x ∈ l, f x = .ok y := by
  induction l generalizing ys with
  | nil => simp [pure, Except.pure] at h; subst h; simp at hy
  | cons x l ih =>
    rw [List.mapM_cons] at h
    cases hx : f x with
    | error e => rw [hx] at h; cases h
    | ok z =>
      cases hl : l.mapM f with
      | error e => rw [hx, hl] at h; cases h
      | ok zs =>
        rw [hx, hl] at h
        simp only [bind, Except.bind, pure, Except.pure, Except.ok.injEq] at h
        subst h
        rcases List.mem_cons.mp hy with rfl | hy
        · exact ⟨x, by simp, hx⟩
        · obtain ⟨w, hw, h⟩ := ih hl hy
          exact ⟨w, by simp [hw], h⟩

theorem unitSets_some {ms : List Bool} : ∀ (l : List PD) (mk ck : Option (List Str))
    (sets : Option (List Bool)), unitSets l mk ck sets = .ok (some ms) →
    (∃ m c, (mk = none ∨ mk = some m) ∧ (ck = none ∨ ck = some c) ∧
      ∀ a ∈ l, a.marg.keys = m ∧ a.cond.keys = c) ∧
    (sets.isSome = true ∨ ∃ a ∈ l, ∃ kv ∈ a.vals, kv.2.isunitsetint = true) := by
  intro l
  induction l with
  | nil =>
    intro mk ck sets h
    simp only [unitSets, Except.ok.injEq] at h
    refine ⟨⟨mk.getD [], ck.getD [], ?_, ?_, by simp⟩, by simp [h]⟩
    · cases mk <;> simp
    · cases ck <;> simp
  | cons a l ih =>
    intro mk ck sets h
    simp only [unitSets] at h
    by_cases h1 : mk.getD a.marg.keys ≠ a.marg.keys
    · simp [h1] at h
    by_cases h2 : ck.getD a.cond.keys ≠ a.cond.keys
    · simp [h1, h2] at h
    rw [if_neg h1, if_neg h2] at h
    simp only [ne_eq, not_not] at h1 h2
    have hmk : mk = none ∨ mk = some a.marg.keys := by
      cases mk <;> simp_all
    have hck : ck = none ∨ ck = some a.cond.keys := by
      cases ck <;> simp_all
    rw [h1, h2] at h
    have wrap : ∀ sets', unitSets l (some a.marg.keys) (some a.cond.keys) sets' = .ok (some ms) →
        (sets'.isSome = true → sets.isSome = true ∨ ∃ x ∈ a :: l, ∃ kv ∈ x.vals, kv.2.isunitsetint = true) →
        (∃ m c, (mk = none ∨ mk = some m) ∧ (ck = none ∨ ck = some c) ∧
          ∀ x ∈ a :: l, x.marg.keys = m ∧ x.cond.keys = c) ∧
        (sets.isSome = true ∨ ∃ x ∈ a :: l, ∃ kv ∈ x.vals, kv.2.isunitsetint = true) := by
      intro sets' h' hs
      obtain ⟨⟨m, c, e1, e2, e3⟩, e4⟩ := ih _ _ _ h'
      simp only [reduceCtorEq, false_or, Option.some.injEq] at e1 e2
      subst e1 e2
      refine ⟨⟨_, _, hmk, hck, ?_⟩, ?_⟩
      · intro x hx
        rcases List.mem_cons.mp hx with rfl | hx
        · exact ⟨rfl, rfl⟩
        · exact e3 x hx
      · rcases e4 with e4 | ⟨x, hx, e⟩
        · exact hs e4
        · exact Or.inr ⟨x, List.mem_cons_of_mem _ hx, e⟩
    split at h
    · exact wrap sets h (fun h => Or.inl h)
    · simp only [bind, Except.bind] at h
      split at h
      · cases h
      · rename_i flags hfl
        split at h
        · split at h
          · rename_i hany
            refine wrap _ h (fun _ => Or.inr ?_)
            obtain ⟨b, hb1, hb2⟩ := List.any_eq_true.mp hany
            obtain ⟨k, _, hk⟩ := mapM_mem hfl hb1
            simp only [PD.getItem] at hk
            cases hg : Dict.get? a.vals k with
            | none => rw [hg] at hk; simp at hk
            | some v =>
              rw [hg] at hk
              simp only [pure, Except.pure, Except.ok.injEq] at hk
              exact ⟨a, by simp, (k, v), Dict.get?_mem hg, by rw [hk]; simpa using hb2⟩
          · cases h
        · split at h
          · exact wrap _ h (fun _ => Or.inl rfl)
          · cases h

theorem unitSets_error_or (l : List PD) (h : ∀ ms, unitSets l none none none ≠ .ok (some ms)) :
    Raises (unitSets l none none none) ∨ unitSets l none none none = .ok none := by
  cases hu : unitSets l none none none with
  | error e => exact Or.inl ⟨e, rfl⟩
  | ok o =>
    cases o with
    | none => exact Or.inr rfl
    | some ms => exact absurd hu (h ms)

/-- Where a product is refused. -/
theorem product_raises (hne : args ≠ [])
    (hdup : ¬ (args.flatMap fun a => a.marg.keys).Nodup →
      ∀ ms, unitSets args none none none ≠ .ok (some ms))
    (hgen : (args.flatMap fun a => a.marg.keys).Nodup →
      ((∀ a ∈ args, a.dist.issingleton = true) →
        ¬ (args.all (fun a => a.cond.isEmpty) = true ∨
            ∀ a ∈ args, ∀ b ∈ args, a.cond.vals = b.cond.vals)) ∧
      Raises (args.foldlM (condCheck args) [])) : Raises (product fmt args) := by
  rcases hargs : args with _ | ⟨first, rest⟩
  · exact absurd hargs hne
  rw [← hargs]
  have hu : product fmt args = product fmt (first :: rest) := by rw [hargs]
  rw [hu]
  unfold product
  simp only [← hargs]
  cases hs : productPscale args with
  | error e => exact ⟨e, rfl⟩
  | ok s =>
    simp only [bind, Except.bind]
    by_cases hn : (args.flatMap fun a => a.marg.keys).Nodup
    · obtain ⟨h1, e, h2⟩ := hgen hn
      simp only [hn, not_true_eq_false, if_false]
      rw [if_neg]
      · refine ⟨e, ?_⟩
        simp only [productGeneral, h2, bind, Except.bind]
      · rintro ⟨hf, _, hc⟩
        simp only [Bool.and_eq_true, List.all_eq_true] at hf
        refine h1 hf.1.1 ?_
        rcases hc with hc | hc
        · exact Or.inl hc
        · right
          simp only [List.all_eq_true, decide_eq_true_eq] at hc
          intro a ha b hb
          rw [hc a ha, hc b hb]
    · simp only [hn, not_false_eq_true, if_true]
      rcases unitSets_error_or args (hdup hn) with ⟨e, he⟩ | he
      · rw [he]; exact ⟨e, rfl⟩
      · rw [he]; exact ⟨_, rfl⟩

theorem two_positions {i j : ℕ} {a b : PD} {k : Str} (hij : i < j) (ha : args[i]? = some a)
    (hb : args[j]? = some b) (hka : k ∈ a.marg.keys) (hkb : k ∈ b.marg.keys) :
    ¬ (args.flatMap fun a => a.marg.keys).Nodup := by
  intro hn
  rw [List.nodup_flatMap] at hn
  have hp := hn.2
  rw [List.pairwise_iff_getElem] at hp
  obtain ⟨hi, rfl⟩ := List.getElem?_eq_some_iff.mp ha
  obtain ⟨hj, rfl⟩ := List.getElem?_eq_some_iff.mp hb
  exact hp i j hi hj hij hka hkb

/-- C20, same marginal variable in two factors: refused, unless a value is a set of
one integer and all factors have the same marginal and conditional variables.
Missing: that exception (`C20_sets_accepted`). -/
theorem C20_duplicate_partial (i j : ℕ) (a b : PD) (k : Str) (hij : i < j)
    (ha : args[i]? = some a) (hb : args[j]? = some b) (hka : k ∈ a.marg.keys)
    (hkb : k ∈ b.marg.keys)
    (hset : (∀ c ∈ args, ∀ kv ∈ c.vals, kv.2.isunitsetint = false) ∨
      ∃ c ∈ args, ∃ c' ∈ args, c.marg.keys ≠ c'.marg.keys ∨ c.cond.keys ≠ c'.cond.keys) :
    Raises (product fmt args) := by
  have hd := two_positions hij ha hb hka hkb
  refine product_raises (by rintro rfl; simp at ha) (fun _ ms hms => ?_) (fun hn => absurd hn hd)
  obtain ⟨⟨m, c, _, _, h1⟩, h2⟩ := unitSets_some args none none none hms
  simp only [Option.isSome_none, Bool.false_eq_true, false_or] at h2
  rcases hset with hset | ⟨c1, hc1, c2, hc2, hne⟩
  · obtain ⟨x, hx, kv, hkv, h⟩ := h2
    rw [hset x hx kv hkv] at h; simp at h
  · obtain ⟨e1, e2⟩ := h1 c1 hc1
    obtain ⟨f1, f2⟩ := h1 c2 hc2
    rcases hne with h | h
    · exact h (e1.trans f1.symm)
    · exact h (e2.trans f2.symm)

theorem unmet_text (hwf : ∀ a ∈ args, a.WF fmt) {a : PD} (ha : a ∈ args) {k t : Str}
    (hk : (k, t) ∈ a.cond) (hu : Spec.Unmet args k) : t ∉ prodMarg args := by
  intro h
  obtain ⟨b, hb, ht⟩ := List.mem_flatMap.mp h
  obtain ⟨kt, hkt, rfl⟩ := List.mem_map.mp ht
  have h1 := str2key_entry ((hwf a ha).condSide.2 _ hk)
  have h2 := str2key_entry ((hwf b hb).margSide.2 _ hkt)
  simp only at h1
  exact hu b hb (by rw [← h1, h2]; exact List.mem_map_of_mem hkt)

/-- C20, conditions that no factor meets: two factors with such conditions must have
the same ones, otherwise the product is refused. -/
theorem C20_conditions_refused (hwf : ∀ a ∈ args, a.WF fmt) (a b : PD) (k k' : Str)
    (ha : a ∈ args) (hb : b ∈ args) (hk : k ∈ a.cond.keys) (hu : Spec.Unmet args k)
    (hk' : k' ∈ b.cond.keys) (hu' : Spec.Unmet args k') (hne : k ∉ b.cond.keys) :
    Raises (product fmt args) := by
  have hargs : args ≠ [] := by rintro rfl; simp at ha
  obtain ⟨⟨_, t⟩, hkt, rfl⟩ := List.mem_map.mp hk
  obtain ⟨⟨_, t'⟩, hkt', rfl⟩ := List.mem_map.mp hk'
  have htb : t ∉ b.cond.vals := by
    intro h
    obtain ⟨kt, h1, rfl⟩ := List.mem_map.mp h
    apply hne
    have e1 := str2key_entry ((hwf a ha).condSide.2 _ hkt)
    have e2 := str2key_entry ((hwf b hb).condSide.2 _ h1)
    simp only at e1 e2 ⊢
    rw [← e1, e2]
    exact List.mem_map_of_mem h1
  have hta : t ∈ a.cond.vals := List.mem_map.mpr ⟨_, hkt, rfl⟩
  refine product_raises hargs ?_ ?_
  · intro _ ms hms
    obtain ⟨⟨m, c, _, _, h1⟩, _⟩ := unitSets_some args none none none hms
    apply hne
    rw [(h1 b hb).2, ← (h1 a ha).2]
    exact hk
  · intro _
    refine ⟨?_, ?_⟩
    · rintro _ (h | h)
      · have := List.all_eq_true.mp h a ha
        rw [List.isEmpty_iff] at this
        rw [this] at hkt; simp at hkt
      · apply htb
        rw [← h a ha b hb]; exact hta
    · obtain ⟨pre, post, hl⟩ := List.append_of_mem hb
      refine foldlM_error (fun _ _ => True) hl trivial (fun _ _ _ _ _ _ => trivial) ?_
      intro st _
      refine ⟨.assertion, ?_⟩
      unfold condCheck
      have hc2m : ∀ s, s ∈ cond2marg args → s ∈ prodMarg args := by
        intro s hs
        simpa using (List.mem_filter.mp hs).2
      rw [if_pos]
      refine ⟨?_, ?_⟩
      · have : t' ∈ b.cond.vals.filter (· ∉ cond2marg args) := by
          refine List.mem_filter.mpr ⟨List.mem_map.mpr ⟨_, hkt', rfl⟩, ?_⟩
          simp only [decide_eq_true_eq]
          exact fun h => unmet_text hwf hb hkt' hu' (hc2m _ h)
        exact List.ne_nil_of_mem this
      · rintro ⟨h, _⟩
        have hm : t ∈ prodCond args := by
          refine List.mem_filter.mpr ⟨List.mem_flatMap.mpr ⟨a, ha, hta⟩, ?_⟩
          simp only [decide_eq_true_eq]
          exact fun h => unmet_text hwf ha hkt hu (hc2m _ h)
        exact htb (List.mem_filter.mp (h t hm)).1

theorem allclose_apart {x y : List ℚ} (h : Spec.Apart x y) : allclose x y ≠ .ok true := by
  intro hc
  unfold allclose at hc
  rcases h with ⟨h1, h2, h3⟩ | ⟨h1, i, u, v, hu, hv, hlt⟩
  · simp [h1, h2, h3] at hc
  · rw [if_pos h1] at hc
    simp only [Except.ok.injEq, List.all_eq_true] at hc
    have hm : (u, v) ∈ x.zip y := by
      rw [List.mem_iff_getElem?]
      exact ⟨i, by rw [List.getElem?_zip_eq_some]; exact ⟨hu, hv⟩⟩
    have := hc _ hm
    simp only [iscloseQ, decide_eq_true_eq] at this
    exact absurd this (not_le.mpr hlt)

/-- One name in the comparison of values. -/
def condName (arg : PD) (st : Dict Str (List ℚ)) (name : Str) : Py (Dict Str (List ℚ)) :=
  match Dict.get? arg.vals name with
  | none => .ok st
  | some v => do
    let r ← v.raveled
    match Dict.get? st name with
    | none => return Dict.set st name r
    | some r0 => if ← allclose r0 r then return st else .error .value

theorem condValues_foldlM (c2m : List Str) (st : Dict Str (List ℚ)) (arg : PD) :
    condValues c2m st arg = c2m.foldlM (condName arg) st := rfl

theorem condName_get? {arg : PD} {st st' : Dict Str (List ℚ)} {name k : Str}
    (h : condName arg st name = .ok st') :
    (name ≠ k → Dict.get? st' k = Dict.get? st k) ∧
    (∀ r, Dict.get? st k = some r → Dict.get? st' k = some r) ∧
    (k ∉ arg.keylist → Dict.get? st' k = Dict.get? st k) ∧
    (∀ s data, name = k → Dict.get? arg.vals k = some (.arr s data) → Dict.get? st k = none →
      Dict.get? st' k = some data) := by
  unfold condName at h
  cases hv : Dict.get? arg.vals name with
  | none =>
    rw [hv] at h
    simp only [Except.ok.injEq] at h
    subst h
    refine ⟨fun _ => rfl, fun _ h => h, fun _ => rfl, ?_⟩
    rintro s data rfl hd _
    rw [hv] at hd; simp at hd
  | some v =>
    rw [hv] at h
    simp only at h
    cases hr : v.raveled with
    | error e => rw [hr] at h; cases h
    | ok r =>
      rw [hr] at h
      simp only [bind, Except.bind] at h
      cases hg : Dict.get? st name with
      | none =>
        rw [hg] at h
        simp only [pure, Except.pure, Except.ok.injEq] at h
        subst h
        refine ⟨fun hne => ?_, fun r' h' => ?_, fun hk => ?_, ?_⟩
        · rw [Dict.get?_set, if_neg hne]
        · have : name ≠ k := by rintro rfl; rw [hg] at h'; simp at h'
          rw [Dict.get?_set, if_neg this]; exact h'
        · have : name ≠ k := by rintro rfl; exact hk (Dict.mem_keys_of_get? hv)
          rw [Dict.get?_set, if_neg this]
        · rintro s data rfl hd _
          rw [hv] at hd
          simp only [Option.some.injEq] at hd
          subst hd
          simp only [Val.raveled, Except.ok.injEq] at hr
          rw [Dict.get?_set, if_pos rfl, hr]
      | some r0 =>
        rw [hg] at h
        simp only at h
        have hst : st' = st := by
          cases hc : allclose r0 r with
          | error e => rw [hc] at h; cases h
          | ok b =>
            rw [hc] at h
            cases b
            · cases h
            · simp only [if_true, pure, Except.pure, Except.ok.injEq] at h; exact h.symm
        subst hst
        refine ⟨fun _ => rfl, fun _ h => h, fun _ => rfl, ?_⟩
        rintro s data rfl _ hn
        rw [hg] at hn; simp at hn

theorem condNames_get? {arg : PD} {k : Str} : ∀ (c2m : List Str) {st st' : Dict Str (List ℚ)},
    c2m.foldlM (condName arg) st = .ok st' →
    (∀ r, Dict.get? st k = some r → Dict.get? st' k = some r) ∧
    (k ∉ arg.keylist → Dict.get? st' k = Dict.get? st k) ∧
    (∀ s data, k ∈ c2m → Dict.get? arg.vals k = some (.arr s data) → Dict.get? st k = none →
      Dict.get? st' k = some data) := by
  intro c2m
  induction c2m with
  | nil =>
    intro st st' h
    simp only [List.foldlM_nil, pure, Except.pure, Except.ok.injEq] at h
    subst h
    exact ⟨fun _ h => h, fun _ => rfl, fun _ _ h => by simp at h⟩
  | cons name c2m ih =>
    intro st st' h
    rw [List.foldlM_cons] at h
    cases h1 : condName arg st name with
    | error e => rw [h1] at h; cases h
    | ok st1 =>
      rw [h1] at h
      obtain ⟨a1, a2, a3, a4⟩ := condName_get? (k := k) h1
      obtain ⟨b1, b2, b3⟩ := ih h
      refine ⟨fun r hr => b1 r (a2 r hr), fun hk => (b2 hk).trans (a3 hk), ?_⟩
      intro s data hk hv hn
      by_cases hne : name = k
      · exact b1 _ (a4 s data hne hv hn)
      · have hk' : k ∈ c2m := by
          rcases List.mem_cons.mp hk with h | h
          · exact absurd h.symm hne
          · exact h
        exact b3 s data hk' hv (by rw [a1 hne]; exact hn)

theorem condNames_raises {arg : PD} {k : Str} {s : List ℕ} {da db : List ℚ}
    (hv : Dict.get? arg.vals k = some (.arr s db)) (hap : Spec.Apart da db) :
    ∀ (c2m : List Str) (st : Dict Str (List ℚ)), k ∈ c2m → Dict.get? st k = some da →
      Raises (c2m.foldlM (condName arg) st) := by
  intro c2m
  induction c2m with
  | nil => intro st h; simp at h
  | cons name c2m ih =>
    intro st hk hst
    rw [List.foldlM_cons]
    cases h1 : condName arg st name with
    | error e => exact ⟨e, rfl⟩
    | ok st1 =>
      obtain ⟨_, a2, _, _⟩ := condName_get? (k := k) h1
      by_cases hne : name = k
      · exfalso
        subst hne
        unfold condName at h1
        rw [hv, hst] at h1
        simp only [Val.raveled, bind, Except.bind] at h1
        have := allclose_apart hap
        cases hc : allclose da db with
        | error e => rw [hc] at h1; cases h1
        | ok b =>
          rw [hc] at h1 this
          cases b
          · cases h1
          · exact this rfl
      · have hk' : k ∈ c2m := by
          rcases List.mem_cons.mp hk with h | h
          · exact absurd h.symm hne
          · exact h
        exact ih st1 hk' (a2 _ hst)

theorem condCheck_ok_eq {st st' : Dict Str (List ℚ)} {arg : PD} (h : condCheck args st arg = .ok st') :
    (cond2marg args).foldlM (condName arg) st = .ok st' := by
  unfold condCheck at h
  dsimp only at h
  split at h
  · cases h
  · exact h

/-- C20, values: when a condition of one factor and a marginal variable of another
(an array, under its own name) are evaluated at values that the comparison tells
apart, the product is refused.  The values compared are those of the first factor
having the variable and of any later one.  Missing: scalars
(`C20_scalar_mismatch`), and differences below the tolerance
(`C20_tolerance`). -/
theorem C20_values_partial (hwf : ∀ a ∈ args, a.WF fmt) (pre mid post : List PD) (a b : PD) (k : Str)
    (hargs : args = pre ++ a :: (mid ++ b :: post)) (hpre : ∀ c ∈ pre, k ∉ c.keylist)
    (hcond : ∃ c ∈ args, Dict.get? c.cond k = some k)
    (hmarg : ∃ m ∈ args, Dict.get? m.marg k = some k)
    (sa sb : List ℕ) (da db : List ℚ) (hsa : sa ≠ [])
    (hva : Dict.get? a.vals k = some (.arr sa da))
    (hvb : Dict.get? b.vals k = some (.arr sb db)) (hap : Spec.Apart da db) :
    Raises (product fmt args) := by
  obtain ⟨c, hc, hck⟩ := hcond
  obtain ⟨m, hm, hmk⟩ := hmarg
  have ha : a ∈ args := by rw [hargs]; simp
  have hkc2m : k ∈ cond2marg args := by
    refine List.mem_filter.mpr ⟨List.mem_flatMap.mpr ⟨c, hc, ?_⟩, ?_⟩
    · exact List.mem_map.mpr ⟨_, Dict.get?_mem hck, rfl⟩
    · simp only [decide_eq_true_eq]
      exact List.mem_flatMap.mpr ⟨m, hm, List.mem_map.mpr ⟨_, Dict.get?_mem hmk, rfl⟩⟩
  refine product_raises (by rintro rfl; simp at ha) ?_ ?_
  · intro _ ms hms
    obtain ⟨⟨mk, ck, _, _, h1⟩, _⟩ := unitSets_some args none none none hms
    have e1 : k ∈ mk := by rw [← (h1 m hm).1]; exact Dict.mem_keys_of_get? hmk
    have e2 : k ∈ ck := by rw [← (h1 c hc).2]; exact Dict.mem_keys_of_get? hck
    rw [← (h1 m hm).1] at e1
    rw [← (h1 m hm).2] at e2
    exact (hwf m hm).disj k e1 e2
  · intro _
    refine ⟨?_, ?_⟩
    · intro hall
      exfalso
      have := hall a ha
      rw [(hwf a ha).is, List.all_eq_true] at this
      have := this _ (Dict.get?_mem hva)
      simp only [Val.issingleton, List.isEmpty_iff] at this
      exact hsa this
    · have keep : ∀ (l : List PD) (st st' : Dict Str (List ℚ)),
          l.foldlM (condCheck args) st = .ok st' → ∀ r, Dict.get? st k = some r →
            Dict.get? st' k = some r := by
        intro l
        induction l with
        | nil =>
          intro st st' h r hr
          simp only [List.foldlM_nil, pure, Except.pure, Except.ok.injEq] at h
          subst h; exact hr
        | cons x l ih =>
          intro st st' h r hr
          rw [List.foldlM_cons] at h
          cases h1 : condCheck args st x with
          | error e => rw [h1] at h; cases h
          | ok st1 =>
            rw [h1] at h
            exact ih st1 st' h r ((condNames_get? _ (condCheck_ok_eq h1)).1 r hr)
      have skip : ∀ (l : List PD), (∀ c ∈ l, k ∉ c.keylist) → ∀ (st st' : Dict Str (List ℚ)),
          l.foldlM (condCheck args) st = .ok st' → Dict.get? st' k = Dict.get? st k := by
        intro l
        induction l with
        | nil =>
          intro _ st st' h
          simp only [List.foldlM_nil, pure, Except.pure, Except.ok.injEq] at h
          rw [h]
        | cons x l ih =>
          intro hl st st' h
          rw [List.foldlM_cons] at h
          cases h1 : condCheck args st x with
          | error e => rw [h1] at h; cases h
          | ok st1 =>
            rw [h1] at h
            rw [ih (fun c hc => hl c (by simp [hc])) st1 st' h,
              (condNames_get? _ (condCheck_ok_eq h1)).2.1 (hl x (by simp))]
      have split : Raises ((pre ++ a :: (mid ++ b :: post)).foldlM (condCheck args) []) := by
        rw [List.foldlM_append]
        cases h1 : pre.foldlM (condCheck args) [] with
        | error e => exact ⟨e, rfl⟩
        | ok st1 =>
          have g1 : Dict.get? st1 k = none := skip pre hpre [] st1 h1
          simp only [bind, Except.bind, List.foldlM_cons]
          cases h2 : condCheck args st1 a with
          | error e => exact ⟨e, rfl⟩
          | ok st2 =>
            have g2 := (condNames_get? _ (condCheck_ok_eq h2)).2.2 sa da hkc2m hva g1
            simp only [List.foldlM_append]
            cases h3 : mid.foldlM (condCheck args) st2 with
            | error e => exact ⟨e, rfl⟩
            | ok st3 =>
              have g3 := keep mid st2 st3 h3 da g2
              simp only [bind, Except.bind, List.foldlM_cons]
              have : Raises (condCheck args st3 b) := by
                unfold condCheck
                dsimp only
                split
                · exact ⟨_, rfl⟩
                · exact condNames_raises hvb hap _ st3 hkc2m g3
              obtain ⟨e, he⟩ := this
              rw [he]; exact ⟨e, rfl⟩
      rwa [← hargs] at split

end

/-! ### Examples and disagreements -/

/-- p(k) at the given two values. -/
noncomputable def margPD (k : Char) (x y : ℚ) : PD :=
  ⟨[k], [([k], [k])], [],
   ⟨[([k], .arr [2] [x, y])], [([k], some 0)], 1, [2], [2], 2, [false], false⟩,
   ⟨[2], fun _ => 1 / 2⟩, .lin 1⟩

/-- Non-vacuity of `C20_duplicate_partial`: p(x) p(y) p(x). -/
example : Raises (product (fun _ => []) [margPD 'x' 1 2, margPD 'y' 3 4, margPD 'x' 1 2]) :=
  C20_duplicate_partial 0 2 _ _ ['x'] (by omega) rfl rfl (by decide) (by decide) (Or.inl (by
    intro c hc kv hkv
    simp only [List.mem_cons, List.not_mem_nil, or_false] at hc
    rcases hc with rfl | rfl | rfl <;>
      simp only [margPD, PD.vals, List.mem_singleton] at hkv <;> subst hkv <;> rfl))

/-- Non-vacuity of `C20_conditions_refused`: p(x|z) p(y|w). -/
example : Raises (product (fun _ => []) [condPD 'x' 'z', condPD 'y' 'w']) := by
  have h1 : evalPscale (PScale.lin 1).spec = .ok (.lin 1) := by simp [PScale.spec, evalPscale]
  refine C20_conditions_refused ?_ (condPD 'x' 'z') (condPD 'y' 'w') ['z'] ['w'] (by simp) (by simp)
    (by decide) (by decide) (by decide) (by decide) (by decide)
  simp only [List.mem_cons, List.not_mem_nil, or_false]
  rintro a (rfl | rfl) <;> exact PD.wf_of_check (by decide) rfl h1

/-- Non-vacuity of `C20_values_partial`: p(x|z) with z = 1, 2 and p(z) with z = 1, 3. -/
example : Raises (product (fun _ => []) [condPD 'x' 'z', margPD 'z' 1 3]) := by
  have h1 : evalPscale (PScale.lin 1).spec = .ok (.lin 1) := by simp [PScale.spec, evalPscale]
  refine C20_values_partial ?_ [] [] [] (condPD 'x' 'z') (margPD 'z' 1 3) ['z'] rfl (by simp)
    ⟨_, List.mem_cons_self, rfl⟩ ⟨margPD 'z' 1 3, by simp, rfl⟩ [1, 2] [2] [1, 2] [1, 3] (by simp)
    rfl rfl (Or.inr ⟨rfl, 1, 2, 3, rfl, rfl, by norm_num⟩)
  simp only [List.mem_cons, List.not_mem_nil, or_false]
  rintro a (rfl | rfl) <;> exact PD.wf_of_check (by decide) rfl h1

/-- The text of the scalars used below. -/
def numText (v : Val) : Str := if v = .scalar 1 then ['1'] else ['2']

/-- p(y | x=1). -/
noncomputable def mismatchA : PD :=
  ⟨['y', '|', 'x', '=', '1'], [(['y'], ['y'])], [(['x'], ['x', '=', '1'])],
   ⟨[(['y'], .arr [2] [1, 2]), (['x'], .scalar 1)], [(['y'], some 0), (['x'], none)],
    1, [2], [2], 2, [false, true], false⟩, ⟨[2], fun _ => 1 / 2⟩, .lin 1⟩

/-- p(x=2). -/
noncomputable def mismatchB : PD :=
  ⟨['x', '=', '2'], [(['x'], ['x', '=', '2'])], [],
   ⟨[(['x'], .scalar 2)], [(['x'], none)], 0, [], [], 1, [true], true⟩,
   ⟨[], fun _ => 1 / 4⟩, .lin 1⟩

/-- C20 fails for scalars: p(y|x=1) p(x=2) is not refused; the result is called
p(y,x=1|x=1) and holds the product of the two probabilities. -/
theorem C20_scalar_mismatch :
    (∀ a ∈ [mismatchA, mismatchB], a.WF numText) ∧ Spec.Clash [mismatchA, mismatchB] ∧
    ∃ r, product numText [mismatchA, mismatchB] = .ok (some r) ∧
      r.name = ['y', ',', 'x', '=', '1', '|', 'x', '=', '1'] ∧ r.prob.get [0] = 1 / 8 := by
  have h1 : evalPscale (PScale.lin 1).spec = .ok (.lin 1) := by simp [PScale.spec, evalPscale]
  refine ⟨?_, ?_, ?_⟩
  · simp only [List.mem_cons, List.not_mem_nil, or_false]
    rintro a (rfl | rfl) <;> exact PD.wf_of_check (by decide) rfl h1
  · exact .value mismatchA mismatchB ['x'] (by simp) (by simp) (by decide) (by decide) (by decide)
  · let Q : Arr := ⟨[2], fun i => (1 / 2 : ℝ) * (1 / 4)⟩
    let r : PD := ⟨['y', ',', 'x', '=', '1', '|', 'x', '=', '1'],
      [(['y'], ['y']), (['x'], ['x', '=', '1'])], [(['x'], ['x', '=', '1'])],
      ⟨[(['y'], .arr [2] [1, 2]), (['x'], .scalar 1)], [(['y'], some 0), (['x'], none)], 1, [2], [2],
       2, [false, true], false⟩, Q, .lin 1⟩
    have hok : product numText [mismatchA, mismatchB] = .ok (some r) := by
      rw [product_general (productPscale_one mismatchA mismatchB rfl rfl) (by decide) rfl]
      have hg : productGeneral numText [mismatchA, mismatchB] (.lin 1) false =
          pdInit numText (productName [mismatchA, mismatchB]) r.vals
            (some [(['y'], some 0)]) Q (PScale.lin 1).spec := rfl
      rw [hg, pdInit_eval (mc := ([(['y'], ['y']), (['x'], ['x', '=', '2'])], r.cond))
        (dist := r.dist) (mc' := (r.marg, r.cond)) (p := .lin 1) rfl rfl rfl h1 rfl]
      rfl
    exact ⟨r, hok, rfl, by norm_num [r, Q]⟩

theorem C20_claim_fails : ¬ C20_claim := by
  intro h
  obtain ⟨h1, h2, r, h3, _⟩ := C20_scalar_mismatch
  obtain ⟨e, he⟩ := h _ _ h1 h2
  rw [h3] at he
  cases he

/-- p(x | z) with z = 1, 1000000. -/
noncomputable def millionPD : PD :=
  ⟨['x', '|', 'z'], [(['x'], ['x'])], [(['z'], ['z'])],
   ⟨[(['x'], .arr [2, 1] [1, 2]), (['z'], .arr [1, 2] [1, 1000000])],
    [(['x'], some 0), (['z'], some 1)],
    2, [2, 2], [2, 2], 4, [false, false], false⟩, ⟨[2, 2], fun _ => 1 / 2⟩, .lin 1⟩

/-- C20 fails for small differences: p(x|z) with z = 1, 1000000 and p(z) with
z = 1, 1000001 are multiplied. -/
theorem C20_tolerance :
    (∀ a ∈ [millionPD, margPD 'z' 1 1000001], a.WF (fun _ => [])) ∧
    Spec.Clash [millionPD, margPD 'z' 1 1000001] ∧
    ∃ r, product (fun _ => []) [millionPD, margPD 'z' 1 1000001] = .ok (some r) := by
  have h1 : evalPscale (PScale.lin 1).spec = .ok (.lin 1) := by simp [PScale.spec, evalPscale]
  refine ⟨?_, ?_, ?_⟩
  · simp only [List.mem_cons, List.not_mem_nil, or_false]
    rintro a (rfl | rfl) <;> exact PD.wf_of_check (by decide) rfl h1
  · exact .value (millionPD) (margPD 'z' 1 1000001) ['z'] (by simp) (by simp) (by decide)
      (by decide) (by decide)
  · let Q : Arr := ⟨[2, 2], fun i => (1 / 2 : ℝ) * (1 / 2)⟩
    let r : PD := ⟨['x', ',', 'z'],
      [(['x'], ['x']), (['z'], ['z'])], [],
      ⟨[(['x'], .arr [2, 1] [1, 2]), (['z'], .arr [1, 2] [1, 1000000])], [(['x'], some 0), (['z'], some 1)],
       2, [2, 2], [2, 2], 4, [false, false], false⟩, Q, .lin 1⟩
    have hok : product (fun _ => []) [millionPD, margPD 'z' 1 1000001] = .ok (some r) := by
      rw [product_general (productPscale_one (millionPD) (margPD 'z' 1 1000001) rfl rfl)
        (by decide) rfl]
      have hall : allclose [1, 1000000] [1, 1000001] = .ok true := by
        simp [allclose, iscloseQ]; norm_num
      have e1 : condCheck [millionPD, margPD 'z' 1 1000001] [] millionPD =
          .ok [(['z'], [1, 1000000])] := rfl
      have e2 : condCheck [millionPD, margPD 'z' 1 1000001] [(['z'], [1, 1000000])]
          (margPD 'z' 1 1000001) = .ok [(['z'], [1, 1000000])] := by
        have : condCheck [millionPD, margPD 'z' 1 1000001] [(['z'], [1, 1000000])]
            (margPD 'z' 1 1000001) =
            (((allclose [1, 1000000] [1, 1000001]).bind fun c =>
              if c = true then .ok [(['z'], [1, 1000000])] else .error .value).bind fun s => .ok s) :=
          rfl
        rw [this, hall]; rfl
      have hc : [millionPD, margPD 'z' 1 1000001].foldlM
          (condCheck [millionPD, margPD 'z' 1 1000001]) [] = .ok [(['z'], [1, 1000000])] := by
        simp only [List.foldlM_cons, List.foldlM_nil, e1, bind, Except.bind, e2]
        rfl
      have hg : productGeneral (fun _ => []) [millionPD, margPD 'z' 1 1000001] (.lin 1) false =
          pdInit (fun _ => []) (productName [millionPD, margPD 'z' 1 1000001]) r.vals
            (some [(['x'], some 0), (['z'], some 1)]) Q (PScale.lin 1).spec := by
        unfold productGeneral
        rw [hc]
        rfl
      rw [hg, pdInit_eval (mc := (r.marg, r.cond))
        (dist := r.dist) (mc' := (r.marg, r.cond)) (p := .lin 1) rfl rfl rfl h1 rfl]
      rfl
    exact ⟨r, hok⟩

/-- p(x={n}). -/
noncomputable def unitPD (n : ℤ) : PD :=
  ⟨['x', '=', '2'], [(['x'], ['x', '=', '2'])], [],
   ⟨[(['x'], .setint n)], [(['x'], none)], 0, [], [], 1, [true], true⟩,
   ⟨[], fun _ => 1 / 4⟩, .lin 1⟩

/-- C20 does not hold for sets of one integer, as the code intends: p(x={1}) p(x={2})
is p(x={3}). -/
theorem C20_sets_accepted :
    (∀ a ∈ [unitPD 1, unitPD 2], a.WF numText) ∧ Spec.Clash [unitPD 1, unitPD 2] ∧
    ∃ r, product numText [unitPD 1, unitPD 2] = .ok (some r) ∧
      r.values ['x'] = some (.setint 3) ∧ r.prob.get [] = 1 / 16 := by
  have h1 : evalPscale (PScale.lin 1).spec = .ok (.lin 1) := by simp [PScale.spec, evalPscale]
  refine ⟨?_, ?_, ?_⟩
  · simp only [List.mem_cons, List.not_mem_nil, or_false]
    rintro a (rfl | rfl) <;> exact PD.wf_of_check (by decide) rfl h1
  · exact .marg 0 1 (unitPD 1) (unitPD 2) ['x'] (by omega) rfl rfl (by decide) (by decide)
  · let Q : Arr := ⟨[], fun i => (1 / 4 : ℝ) * (1 / 4)⟩
    let r : PD := ⟨['x', '=', '2'], [(['x'], ['x', '=', '2'])], [],
      ⟨[(['x'], .setint 3)], [(['x'], none)], 0, [], [], 1, [true], true⟩, Q, .lin 1⟩
    have hok : product numText [unitPD 1, unitPD 2] = .ok (some r) := by
      unfold product
      have hp := productPscale_one (unitPD 1) (unitPD 2) rfl rfl
      have hd : ¬ (List.flatMap (fun a : PD => a.marg.keys) [unitPD 1, unitPD 2]).Nodup := by decide
      have hu : unitSets [unitPD 1, unitPD 2] none none none = .ok (some [true]) := rfl
      simp only [hp, bind, Except.bind, hd, not_false_eq_true, if_true, hu]
      have hg : productFast numText [unitPD 1, unitPD 2] (unitPD 1) (.lin 1) (some [true]) =
          pdInit numText ['x', '=', '2', '|'] r.vals
            (some [(['x'], none)]) Q (PScale.lin 1).spec := rfl
      rw [hg, pdInit_eval (mc := (r.marg, r.cond))
        (dist := r.dist) (mc' := (r.marg, r.cond)) (p := .lin 1) rfl rfl rfl h1 rfl]
      rfl
    exact ⟨r, hok, rfl, by norm_num [r, Q]⟩

end Probayes
