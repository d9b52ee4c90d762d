/-
C103: calling a field gives the grid of the values asked for.
-/
import Verif.Model.FieldCall
import Verif.Props.RFCall

namespace Probayes

/-- The values asked for one by one, as the dictionary or keywords passed. -/
def Spec.separately (values : Dict Str Req) : List (List Str × JRaw) :=
  values.map fun kq => ([kq.1], .one kq.2)

/-- What a variable that is left out is asked for: a single random value if the field has a
variable of float type, all values otherwise. -/
def Spec.unasked (vs : List JVar) : Req := if vs.any fun v => v.isFloat then .count 0 else .all

/-- A distribution of named values on a grid: each number as it is and without axis, the values of
each array along an axis of its own, the axes in the order of the names, and each combination of
values at one place. -/
structure Spec.Grid (names : List Str) (x : Str → VArg ℚ) (name : Str) (d : Dist) : Prop where
  keys : d.vals.keys.Perm names
  order : (∃ k ∈ names, ∃ xs, x k = .array xs) → d.vals.keys = names
  name : name = [','].intercalate d.vals.keys
  number : ∀ k ∈ names, ∀ a, x k = .scalar a →
    Dict.get? d.vals k = some (.scalar a) ∧ (Dict.get? d.dims k).join = none
  array : ∀ k ∈ names, ∀ xs, x k = .array xs → ∃ a, a < d.shape.length ∧
    Dict.get? d.vals k = some (.arr ((List.replicate d.shape.length 1).set a xs.length) xs) ∧
    Dict.get? d.dims k = some (some a) ∧ d.shape[a]? = some xs.length
  axes : names.Pairwise fun k k' => ∀ a b, Dict.get? d.dims k = some (some a) →
    Dict.get? d.dims k' = some (some b) → a < b
  full : ∀ a < d.shape.length, ∃ k ∈ names, Dict.get? d.dims k = some (some a)
  size : d.size = d.shape.prod

/-- C103 as intended: a field of distinctly named variables, asked for values one by one, gives
the grid of these values; a variable left out is asked for a single random value if the field
has a variable of float type, and for all its values otherwise. -/
def C103_claim : Prop :=
  ∀ (vs : List JVar) (values : Dict Str Req) (x : Str → VArg ℚ), vs ≠ [] → (vs.map JVar.name).Nodup →
    (∀ v ∈ vs, v.name ∉ disallowed) → values.keys.Nodup → (∀ k ∈ values.keys, k ∈ vs.map JVar.name) →
    (∀ v ∈ vs, v.evaluate ((Dict.get? values v.name).getD (Spec.unasked vs)) = .ok (x v.name)) →
    (∀ v ∈ vs, ∀ xs, x v.name = .array xs → xs ≠ []) →
    ∃ name d, fieldCall vs (Spec.separately values) = .ok (some (name, d)) ∧
      Spec.Grid (vs.map JVar.name) x name d

/-! ### Parsing -/

/-- The requests after parsing. -/
def asked (vs : List JVar) (values : Dict Str Req) (q : Req) : Dict Str Req :=
  values ++ ((vs.map JVar.name).filter fun k => decide (k ∉ values.keys)).map fun k => (k, q)

/-- One by one. -/
def singly (values : Dict Str Req) : JReqs := values.map fun kq => ([kq.1], [kq.2])

theorem jParse_separately {vs : List JVar} {values : Dict Str Req}
    (hk : ∀ k ∈ values.keys, k ∈ vs.map JVar.name) :
    jParse vs (Spec.separately values) =
      .ok (singly (asked vs values (jDefault (vs.any JVar.isFloat) (Spec.separately values)))) := by
  have h1 : ∀ l : Dict Str Req, (∀ k ∈ l.keys, k ∈ vs.map JVar.name) →
      (Spec.separately l).mapM (jParseEntry (vs.map JVar.name)) = .ok (singly l) := by
    intro l
    induction l with
    | nil => intro _; rfl
    | cons kq l ih =>
      intro h
      have e : jParseEntry (vs.map JVar.name) ([kq.1], .one kq.2) = .ok ([kq.1], [kq.2]) := by
        have hm : kq.1 ∈ vs.map JVar.name := h kq.1 (by simp [Dict.keys])
        simp [jParseEntry, hm]
      have ih' := ih fun k hk => h k (by simp only [Dict.keys, List.map_cons, List.mem_cons]; exact Or.inr hk)
      simp only [Spec.separately, List.map_cons] at ih' ⊢
      rw [List.mapM_cons, e, ih']
      rfl
  have h2 : ((singly values).map Prod.fst).flatten = values.keys := by
    simp only [singly, Dict.keys, List.map_map, Function.comp_def, List.flatten_eq_flatMap, List.flatMap_map]
    induction values with
    | nil => rfl
    | cons kq l ih =>
      simp only [List.flatMap_cons, List.map_cons, id, List.cons_append, List.nil_append]
      rw [← ih fun k hk' => hk k (by simp only [Dict.keys, List.map_cons, List.mem_cons]; exact Or.inr hk')]
      rfl
  unfold jParse
  rw [h1 values hk]
  simp only [h2]
  simp only [singly, asked, List.map_append, List.map_map, Function.comp_def]

theorem get?_asked {vs : List JVar} {values : Dict Str Req} {q : Req} {k : Str} (hk : k ∈ vs.map JVar.name) :
    Dict.get? (asked vs values q) k = some ((Dict.get? values k).getD q) := by
  rw [asked, Dict.get?_append, get?_const]
  rcases h : Dict.get? values k with _ | q'
  · have : k ∉ values.keys := Dict.get?_eq_none.mp h
    rw [if_pos (by simp only [List.mem_filter, decide_eq_true_eq]; exact ⟨hk, this⟩)]; rfl
  · simp

theorem perm_asked {vs : List JVar} {values : Dict Str Req} {q : Req} (hn : (vs.map JVar.name).Nodup)
    (hv : values.keys.Nodup) (hk : ∀ k ∈ values.keys, k ∈ vs.map JVar.name) :
    (asked vs values q).keys.Perm (vs.map JVar.name) := by
  rw [asked, Dict.keys_append]
  have he : Dict.keys (((vs.map JVar.name).filter fun k => decide (k ∉ values.keys)).map fun k => (k, q)) =
      (vs.map JVar.name).filter fun k => decide (k ∉ values.keys) := by
    simp [Dict.keys, Function.comp_def]
  rw [he, List.perm_ext_iff_of_nodup _ hn]
  · intro k
    simp only [List.mem_append, List.mem_filter, decide_eq_true_eq]
    constructor
    · rintro (h | h)
      · exact hk k h
      · exact h.1
    · intro h
      by_cases h' : k ∈ values.keys
      · exact Or.inl h'
      · exact Or.inr ⟨h, h'⟩
  · rw [List.nodup_append]
    refine ⟨hv, hn.filter _, ?_⟩
    intro k hk1 k' hk2 e
    subst e
    simp at hk2
    exact hk2.2 hk1

theorem jSingle_singly (values : Dict Str Req) (k : Str) : jSingle (singly values) k = Dict.get? values k := by
  induction values with
  | nil => rfl
  | cons kq l ih =>
    simp only [singly, List.map_cons, jSingle, Dict.get?, List.cons.injEq, and_true, List.head?_cons] at ih ⊢
    rw [ih]

theorem singleSpec_singly (values : Dict Str Req) (k : Str) :
    singleSpec ((singly values).map fun e => (e.1, e.2.map Req.spec)) k = (Dict.get? values k).map Req.spec := by
  induction values with
  | nil => rfl
  | cons kq l ih =>
    simp only [singly, List.map_cons, List.map_nil, singleSpec, Dict.get?, List.cons.injEq, and_true,
      List.head?_cons] at ih ⊢
    rw [ih]
    split <;> rfl

theorem jointRef_singly (values : Dict Str Req) (k : Str) :
    jointRef ((singly values).map fun e => (e.1, e.2.map Req.spec)) k = none := by
  induction values with
  | nil => rfl
  | cons kq l ih =>
    simp only [singly, List.map_cons, List.map_nil, jointRef] at ih ⊢
    rw [ih]
    simp

/-- All asked for are numbers. -/
theorem jScalars_numbers (values : Dict Str Req) :
    (∀ kq ∈ values, ∃ x, kq.2 = .scalar x) →
    ∃ vals : Dict Str Laid, jScalars (singly values) = some vals ∧ vals.keys = values.keys ∧
      ∀ k x, Dict.get? values k = some (.scalar x) → Dict.get? vals k = some ⟨.scalar x, []⟩ := by
  induction values with
  | nil => intro _; exact ⟨[], rfl, rfl, by simp [Dict.get?]⟩
  | cons kq values ih =>
    intro h
    obtain ⟨vals, h1, h2, h3⟩ := ih fun kq hkq => h kq (by simp [hkq])
    obtain ⟨k, q⟩ := kq
    obtain ⟨x, hx⟩ := h (k, q) (by simp)
    simp only at hx
    subst hx
    refine ⟨(k, ⟨.scalar x, []⟩) :: vals, ?_, by simp [h2], ?_⟩
    · simp only [jScalars, singly, List.map_cons, List.mapM_cons] at h1 ⊢
      rw [h1]; rfl
    · intro k' x' hk'
      simp only [Dict.get?] at hk' ⊢
      split at hk'
      · rename_i he
        simp only [Option.some.injEq, Req.scalar.injEq] at hk'
        simp [he, hk']
      · rename_i he
        rw [if_neg he]; exact h3 k' x' hk'

theorem jScalars_other (values : Dict Str Req) (kq : Str × Req) (hm : kq ∈ values) (hq : ∀ x, kq.2 ≠ .scalar x) :
    jScalars (singly values) = none := by
  induction values with
  | nil => simp at hm
  | cons kq' values ih =>
    simp only [jScalars, singly, List.map_cons, List.mapM_cons] at ih ⊢
    rcases List.mem_cons.mp hm with rfl | hm
    · obtain ⟨k, q⟩ := kq
      rcases q with _ | n | x | xs
      · rfl
      · rfl
      · exact absurd rfl (hq x)
      · rfl
    · rw [ih hm]
      obtain ⟨k, q⟩ := kq'
      cases q <;> rfl

/-! ### Axes -/

theorem req_dimless (q : Req) : q.spec.dimless = q.dimless := by
  cases q <;> simp [Req.spec, FSpec.dimless, Req.dimless]

theorem dimLoop_singly {values : Dict Str Req} {x : Str → VArg ℚ} (names : List Str)
    (hq : ∀ k ∈ names, ∃ q, Dict.get? values k = some q ∧ q.dimless = (x k).isscalar) :
    ∀ (done : Dict Str (Option ℕ)) (n : ℕ) (seen : List Str), (done.keys ++ names).Nodup →
    ∃ s, dimLoop ((singly values).map fun e => (e.1, e.2.map Req.spec)) names
        ⟨n, done ++ names.map fun k => (k, none), seen⟩ = .ok s ∧
      s.dims = done ++ axesFrom n (names.map fun k => (k, x k)) := by
  induction names with
  | nil => intro done n seen _; exact ⟨_, rfl, by simp [axesFrom]⟩
  | cons k names ih =>
    intro done n seen hn
    obtain ⟨q, hq1, hq2⟩ := hq k (by simp)
    have hstep := jointRef_singly values k
    have hs := singleSpec_singly values k
    rw [hq1] at hs
    have hk : k ∉ done.keys := by
      have := List.nodup_append.mp hn
      intro h; exact this.2.2 k h k (by simp) rfl
    have hn' : ∀ o : Option ℕ, ((done ++ [(k, o)]).keys ++ names).Nodup := by
      intro o
      simpa [Dict.keys, List.append_assoc] using hn
    rcases hx : x k with a | xs
    · have hd : q.spec.dimless = true := by rw [req_dimless, hq2, hx]; rfl
      obtain ⟨s, h1, h2⟩ := ih (fun k hk => hq k (by simp [hk])) (done ++ [(k, none)]) n (k :: seen) (hn' _)
      refine ⟨s, ?_, ?_⟩
      · simp only [dimLoop, dimStep, hstep, hs, Option.map_some, hd, if_true]
        simpa using h1
      · rw [h2]; simp [axesFrom, hx]
    · have hd : q.spec.dimless = false := by rw [req_dimless, hq2, hx]; rfl
      obtain ⟨s, h1, h2⟩ := ih (fun k hk => hq k (by simp [hk])) (done ++ [(k, some n)]) (n + 1) (k :: seen) (hn' _)
      refine ⟨s, ?_, ?_⟩
      · simp only [dimLoop, dimStep, hstep, hs, Option.map_some, hd, Bool.false_eq_true, if_false]
        have : Dict.set (done ++ (k :: names).map fun k => (k, none)) k (some n) =
            (done ++ [(k, some n)]) ++ names.map fun k => (k, none) := by
          clear h1 h2 hn' hn
          induction done with
          | nil => simp [Dict.set]
          | cons kd done ih =>
            have hne : kd.1 ≠ k := fun h => hk (by simp [Dict.keys, h])
            simp only [List.cons_append, Dict.set, if_neg hne]
            rw [ih (fun h => hk (by simp only [Dict.keys, List.map_cons, List.mem_cons]; exact Or.inr h))]
        rw [this]; exact h1
      · rw [h2]; simp [axesFrom, hx]

/-- The names with their values. -/
def namedBy (names : List Str) (x : Str → VArg ℚ) : List (Str × VArg ℚ) := names.map fun k => (k, x k)

theorem namedBy_fst (names : List Str) (x : Str → VArg ℚ) : (namedBy names x).map Prod.fst = names := by
  simp [namedBy, Function.comp_def]

theorem axis_number {names : List Str} (hn : names.Nodup) {x : Str → VArg ℚ} {k : Str} (hk : k ∈ names) {a : ℚ}
    (hx : x k = .scalar a) : Dict.get? (axesFrom 0 (namedBy names x)) k = some none := by
  obtain ⟨y, hy, h⟩ := axes_mem (namedBy names x) 0 k (by rw [namedBy_fst]; exact hk) (by rw [namedBy_fst]; exact hn)
  obtain ⟨k', _, he⟩ := List.mem_map.mp hy
  simp only [Prod.mk.injEq] at he
  obtain ⟨rfl, rfl⟩ := he
  rw [hx] at h
  exact h

theorem axis_array {names : List Str} (hn : names.Nodup) {x : Str → VArg ℚ} {k : Str} (hk : k ∈ names) {xs : List ℚ}
    (hx : x k = .array xs) : ∃ a, Dict.get? (axesFrom 0 (namedBy names x)) k = some (some a) ∧
      (shapeOf (namedBy names x))[a]? = some xs.length ∧ a < (shapeOf (namedBy names x)).length := by
  obtain ⟨y, hy, h⟩ := axes_mem (namedBy names x) 0 k (by rw [namedBy_fst]; exact hk) (by rw [namedBy_fst]; exact hn)
  obtain ⟨k', _, he⟩ := List.mem_map.mp hy
  simp only [Prod.mk.injEq] at he
  obtain ⟨rfl, rfl⟩ := he
  rw [hx] at h
  obtain ⟨a, h1, h2⟩ := h
  rw [Nat.zero_add] at h1
  exact ⟨a, h1, h2, by by_contra hc; rw [List.getElem?_eq_none (by omega)] at h2; simp at h2⟩

/-- A value laid out. -/
def laidBy (names : List Str) (x : Str → VArg ℚ) (k : Str) : Laid :=
  laidOf (shapeOf (namedBy names x)).length (Dict.get? (axesFrom 0 (namedBy names x)) k).join (x k)

theorem jLay_ok {names : List Str} (hn : names.Nodup) {values : Dict Str Req} {x : Str → VArg ℚ} {v : JVar}
    (hv : v.name ∈ names) {q : Req} (hq : Dict.get? values v.name = some q) (he : v.evaluate q = .ok (x v.name)) :
    jLay (singly values) (axesFrom 0 (namedBy names x)) v = .ok (v.name, laidBy names x v.name) := by
  have hr : jRequest (singly values) v.name = some q := by
    rw [jRequest, jSingle_singly, hq]; rfl
  unfold jLay
  simp only [hr, he, bind, Except.bind]
  rcases hx : x v.name with a | xs
  · simp [laidBy, hx, laidOf, pure, Except.pure]
  · obtain ⟨a, h1, h2, hlt⟩ := axis_array hn hv hx
    have hne : shapeOf (namedBy names x) ≠ [] := by rintro h0; rw [h0] at hlt; simp at hlt
    have hnd : fieldNdims (axesFrom 0 (namedBy names x)) = (shapeOf (namedBy names x)).length := by
      rw [ndims_axesFrom, if_neg hne]; omega
    simp [hnd, h1, reShape, hlt, laidBy, hx, laidOf, axisShape, pure, Except.pure]

/-- What evaluating the field gives. -/
theorem jEvaluate_singly {vs : List JVar} (hn : (vs.map JVar.name).Nodup) {values : Dict Str Req} {x : Str → VArg ℚ}
    (hp : values.keys.Perm (vs.map JVar.name))
    (hq : ∀ v ∈ vs, ∃ q, Dict.get? values v.name = some q ∧ v.evaluate q = .ok (x v.name) ∧
      q.dimless = (x v.name).isscalar) :
    ∃ vals dims, jEvaluate vs (singly values) = .ok (vals, dims) ∧ vals.keys.Perm (vs.map JVar.name) ∧
      ((∃ k ∈ vs.map JVar.name, ∃ xs, x k = .array xs) → vals.keys = vs.map JVar.name) ∧
      (∀ k ∈ vs.map JVar.name, Dict.get? vals k = some (laidBy (vs.map JVar.name) x k)) ∧
      dims.keys.Nodup ∧ (∀ k ∈ dims.keys, k ∈ vs.map JVar.name) ∧
      ∀ k, (Dict.get? dims k).join = (Dict.get? (axesFrom 0 (namedBy (vs.map JVar.name) x)) k).join := by
  set names := vs.map JVar.name with hnames
  by_cases hall : ∀ kq ∈ values, ∃ x, kq.2 = Req.scalar x
  · obtain ⟨vals, h1, h2, h3⟩ := jScalars_numbers _ hall
    have hx : ∀ v ∈ vs, ∃ a, Dict.get? values v.name = some (.scalar a) ∧ x v.name = .scalar a := by
      intro v hv
      obtain ⟨q, hq1, hq2, _⟩ := hq v hv
      obtain ⟨a, ha⟩ := hall _ (Dict.get?_mem hq1)
      simp only at ha
      subst ha
      refine ⟨a, hq1, ?_⟩
      rcases v with v | v <;> simp [JVar.evaluate, DRV.evaluate, FCont.evaluate] at hq2 <;> exact hq2.symm
    refine ⟨vals, [], ?_, by rw [h2]; exact hp, ?_, ?_, by simp, by simp, ?_⟩
    · simp only [jEvaluate, h1]
    · rintro ⟨k, hk, xs, hxs⟩
      obtain ⟨v, hv, rfl⟩ := List.mem_map.mp hk
      obtain ⟨a, _, ha⟩ := hx v hv
      rw [ha] at hxs; simp at hxs
    · intro k hk
      obtain ⟨v, hv, rfl⟩ := List.mem_map.mp hk
      obtain ⟨a, ha1, ha2⟩ := hx v hv
      rw [h3 _ a ha1, laidBy, ha2]; rfl
    · intro k
      symm
      simp only [Dict.get?, Option.join_none]
      by_contra hc
      obtain ⟨a, ha⟩ := Option.ne_none_iff_exists'.mp hc
      have hkm := Dict.mem_keys_of_get? (join_eq_some.mp ha)
      rw [keys_axesFrom, namedBy_fst] at hkm
      obtain ⟨v, hv, rfl⟩ := List.mem_map.mp hkm
      obtain ⟨b, _, hb⟩ := hx v hv
      rw [axis_number hn hkm hb] at ha
      simp at ha
  · push_neg at hall
    obtain ⟨kq, hkq, hns⟩ := hall
    obtain ⟨s, hs1, hs2⟩ := dimLoop_singly (values := values) (x := x) names (by
      intro k hk
      obtain ⟨v, hv, rfl⟩ := List.mem_map.mp hk
      obtain ⟨q, h1, _, h3⟩ := hq v hv
      exact ⟨q, h1, h3⟩) [] 0 [] (by simpa using hn)
    rw [List.nil_append] at hs1 hs2
    have hm : vs.mapM (jLay (singly values) (axesFrom 0 (namedBy names x))) =
        .ok (vs.map fun v => (v.name, laidBy names x v.name)) := by
      have key : ∀ l : List JVar, (∀ v ∈ l, v ∈ vs) → l.mapM (jLay (singly values) (axesFrom 0 (namedBy names x))) =
          .ok (l.map fun v => (v.name, laidBy names x v.name)) := by
        intro l hl
        induction l with
        | nil => rfl
        | cons v l ih =>
          obtain ⟨q, h1, h2, _⟩ := hq v (hl v (by simp))
          rw [List.mapM_cons, jLay_ok hn (List.mem_map.mpr ⟨v, hl v (by simp), rfl⟩) h1 h2,
            ih fun v hv => hl v (by simp [hv])]
          rfl
      exact key vs fun _ h => h
    have hkeys : Dict.keys (vs.map fun v => (v.name, laidBy names x v.name)) = names := by
      simp [Dict.keys, Function.comp_def, hnames]
    have hget : ∀ k ∈ names, Dict.get? (vs.map fun v => (v.name, laidBy names x v.name)) k = some (laidBy names x k) := by
      intro k hk
      obtain ⟨v, hv, rfl⟩ := List.mem_map.mp hk
      exact Dict.get?_of_mem (by rw [hkeys]; exact hn) (List.mem_map.mpr ⟨v, hv, rfl⟩)
    have hdims : (axesFrom 0 (namedBy names x)).map (rfUndim (vs.map fun v => (v.name, laidBy names x v.name))) =
        axesFrom 0 (namedBy names x) := by
      conv_rhs => rw [← List.map_id (axesFrom 0 (namedBy names x))]
      apply List.map_congr_left
      rintro ⟨k, o⟩ hko
      have hkm : k ∈ Dict.keys (axesFrom 0 (namedBy names x)) := List.mem_map.mpr ⟨_, hko, rfl⟩
      have hg := Dict.get?_of_mem (by rw [keys_axesFrom, namedBy_fst]; exact hn) hko
      rw [keys_axesFrom, namedBy_fst] at hkm
      simp only [rfUndim, hget k hkm, id]
      simp only [laidBy]
      rcases hx : x k with a | xs
      · rw [axis_number hn hkm hx] at hg
        simp only [Option.some.injEq] at hg
        simp [laidOf, hg]
      · rfl
    refine ⟨_, _, ?_, ?_, fun _ => ?_, hget, ?_, ?_, fun _ => rfl⟩
    · simp only [jEvaluate, jScalars_other _ kq hkq hns]
      rw [← hnames, hs1]
      show (do
        let vals ← vs.mapM (jLay (singly values) s.dims)
        return (vals, s.dims.map (rfUndim vals)) : Py _) = _
      rw [hs2]
      show (do
        let vals ← vs.mapM (jLay (singly values) (axesFrom 0 (namedBy names x)))
        return (vals, (axesFrom 0 (namedBy names x)).map (rfUndim vals)) : Py _) = _
      rw [hm]
      show Except.ok (_, (axesFrom 0 (namedBy names x)).map (rfUndim _)) = _
      rw [hdims]
    · rw [hkeys]
    · exact hkeys
    · rw [keys_axesFrom, namedBy_fst]; exact hn
    · intro k hk; rwa [keys_axesFrom, namedBy_fst] at hk

/-! ### The distribution -/

theorem grid_ok {names : List Str} (hne : names ≠ []) (hn : names.Nodup) (hal : ∀ k ∈ names, k ∉ disallowed)
    {x : Str → VArg ℚ} (hpos : ∀ k ∈ names, ∀ xs, x k = .array xs → xs ≠ []) {vals : Dict Str Laid}
    {dims : Dict Str (Option ℕ)} (h1 : vals.keys.Perm names)
    (h2 : (∃ k ∈ names, ∃ xs, x k = .array xs) → vals.keys = names)
    (h3 : ∀ k ∈ names, Dict.get? vals k = some (laidBy names x k)) (h4 : dims.keys.Nodup)
    (h5 : ∀ k ∈ dims.keys, k ∈ names)
    (h6 : ∀ k, (Dict.get? dims k).join = (Dict.get? (axesFrom 0 (namedBy names x)) k).join) :
    ∃ d, distDims (vals.map fun kl => (kl.1, kl.2.toVal)) (some dims) = .ok d ∧
      Spec.Grid names x ([','].intercalate vals.keys) d := by
  set V : Dict Str Val := vals.map fun kl => (kl.1, kl.2.toVal) with hV
  set S := shapeOf (namedBy names x) with hS
  have hVk : V.keys = vals.keys := by simp [hV, Dict.keys, Function.comp_def]
  have hVn : V.keys.Nodup := by rw [hVk]; exact h1.nodup_iff.mpr hn
  have hVg : ∀ k ∈ names, Dict.get? V k = some (laidBy names x k).toVal := by
    intro k hk
    have := Dict.get?_map (fun (_ : Str) (l : Laid) => l.toVal) vals k
    rw [hV, this, h3 k hk]; rfl
  have hnum : ∀ k ∈ names, ∀ a, x k = .scalar a → (laidBy names x k).toVal = .scalar a := by
    intro k _ a ha; simp [laidBy, ha, laidOf, Laid.toVal]
  have harr : ∀ k ∈ names, ∀ xs, x k = .array xs → ∃ a, a < S.length ∧ S[a]? = some xs.length ∧
      Dict.get? dims k = some (some a) ∧ (laidBy names x k).toVal = .arr (axisShape S.length a xs.length) xs ∧
      (axisShape S.length a xs.length).isEmpty = false ∧
      xs.length = (axisShape S.length a xs.length).foldl max 0 := by
    intro k hk xs hxs
    obtain ⟨a, a1, a2, a3⟩ := axis_array hn hk hxs
    refine ⟨a, a3, a2, join_eq_some.mp (by rw [h6, a1]; rfl), by simp [laidBy, hxs, laidOf, Laid.toVal, a1, hS], ?_, ?_⟩
    · have := length_axisShape S.length a xs.length
      rcases hsh : axisShape S.length a xs.length with _ | ⟨m, t⟩
      · exfalso
        have h0 : S.length = 0 := by rw [hsh] at this; exact this.symm
        have a3' : a < S.length := a3
        omega
      · rfl
    · exact (foldl_max_axisShape _ _ _ a3 (List.length_pos_iff.mpr (hpos k hk xs hxs))).symm
  have hmem : ∀ kv ∈ V, kv.1 ∈ names ∧ kv.2 = (laidBy names x kv.1).toVal := by
    intro kv hkv
    have hk : kv.1 ∈ names := by
      rw [← h1.mem_iff, ← hVk]; exact List.mem_map.mpr ⟨kv, hkv, rfl⟩
    refine ⟨hk, ?_⟩
    have := Dict.get?_of_mem hVn hkv
    rw [hVg _ hk] at this
    exact (Option.some.inj this).symm
  have hfix : fixVals V = V := by
    apply fixVals_id
    intro kv hkv hnone
    obtain ⟨hk, he⟩ := hmem kv hkv
    rcases hx : x kv.1 with a | xs
    · rw [hnum _ hk a hx] at he; rw [he] at hnone; simp at hnone
    · obtain ⟨a, _, _, _, h, _⟩ := harr _ hk xs hx
      rw [h] at he; rw [he] at hnone; simp at hnone
  have hmax : maxDim dims = S.length := by
    apply maxDim_eq
    · intro k a hka
      have hg := Dict.get?_of_mem h4 hka
      have hk : k ∈ names := h5 k (Dict.mem_keys_of_get? hg)
      have hj := h6 k
      rw [hg] at hj
      rcases hx : x k with b | xs
      · rw [axis_number hn hk hx] at hj; simp at hj
      · obtain ⟨b, b1, b2, b3, _⟩ := harr k hk xs hx
        rw [hg] at b3
        simp only [Option.some.injEq] at b3
        subst b3; exact b1
    · intro a ha
      obtain ⟨k, _, hka⟩ := axes_cover (namedBy names x) 0 a (by rw [namedBy_fst]; exact hn) ha
      exact ⟨k, join_eq_some.mp (by rw [h6, hka]; simp)⟩
  have hready : DistReady V dims S := by
    refine ⟨?_, hVn, ?_, ?_, ?_, hmax.symm, ?_⟩
    · intro h0
      rw [h0] at hVk
      rw [← hVk] at h1
      have := h1.length_eq
      simp at this
      exact hne (List.length_eq_zero_iff.mp this.symm)
    · intro k hk
      rw [hVk, h1.mem_iff] at hk
      exact hal k hk
    · rw [hfix]
      intro kv hkv
      obtain ⟨hk, he⟩ := hmem kv hkv
      rcases hx : x kv.1 with a | xs
      · refine Or.inl ⟨by rw [he, hnum _ hk a hx]; rfl, ?_⟩
        rw [h6, axis_number hn hk hx]; rfl
      · obtain ⟨a, a1, a2, a3, a4, a5, a6⟩ := harr _ hk xs hx
        exact Or.inr ⟨by rw [he, a4]; exact a5, _, xs, a, by rw [he, a4], a6, a3⟩
    · rw [hfix]
      intro kv hkv _ s data a hv ha
      obtain ⟨hk, he⟩ := hmem kv hkv
      rcases hx : x kv.1 with b | xs
      · rw [he, hnum _ hk b hx] at hv; simp at hv
      · obtain ⟨b, b1, b2, b3, b4, _⟩ := harr _ hk xs hx
        rw [he, b4] at hv
        simp only [Val.arr.injEq] at hv
        rw [b3] at ha
        simp only [Option.some.injEq] at ha
        rw [← ha, b2, hv.2]
    · rw [hfix, hmax]
      intro a ha
      obtain ⟨k, hk, hka⟩ := axes_cover (namedBy names x) 0 a (by rw [namedBy_fst]; exact hn) ha
      rw [namedBy_fst] at hk
      rw [Nat.zero_add] at hka
      rcases hx : x k with b | xs
      · rw [axis_number hn hk hx] at hka; simp at hka
      · obtain ⟨b, b1, b2, b3, b4, b5, _⟩ := harr k hk xs hx
        refine ⟨_, Dict.get?_mem (hVg k hk), by rw [b4]; exact b5, ?_⟩
        exact join_eq_some.mp (by rw [h6, hka])
  obtain ⟨d, d1, d2, d3, d4, d5, d6, d7, d8⟩ := distDims_ok hready
  rw [hfix] at d2 d3
  have hdk : d.vals.keys = vals.keys := by
    rw [d2]
    simp only [Dict.keys, List.map_map, Function.comp_def] at hVk ⊢
    exact hVk
  have hdv : ∀ k ∈ names, Dict.get? d.vals k = some (placeVal dims (maxDim dims) k (laidBy names x k).toVal) := by
    intro k hk
    rw [d2, Dict.get?_map (fun (k : Str) (v : Val) => placeVal dims (maxDim dims) k v) V k, hVg k hk]; rfl
  have hdd : ∀ k a, Dict.get? d.dims k = some (some a) ↔ (Dict.get? dims k) = some (some a) := by
    intro k a
    rw [d3, get?_foldl_dimsAfter V dims hVn k]
    rcases Dict.get? dims k with _ | o
    · simp only [Option.none_or]
      rcases Dict.get? V k with _ | v
      · simp
      · simp only
        split <;> simp
    · simp
  refine ⟨d, d1, ⟨by rw [hdk]; exact h1, fun h => by rw [hdk]; exact h2 h, by rw [hdk], ?_, ?_, ?_, ?_, by rw [d6, d5]⟩⟩
  · intro k hk a ha
    refine ⟨?_, ?_⟩
    · rw [hdv k hk, hnum k hk a ha]; simp [placeVal, Val.issingleton]
    · by_contra hc
      obtain ⟨b, hb⟩ := Option.ne_none_iff_exists'.mp hc
      have := (hdd k b).mp (join_eq_some.mp hb)
      have h6' := h6 k
      rw [this, axis_number hn hk ha] at h6'
      simp at h6'
  · intro k hk xs hxs
    obtain ⟨a, a1, a2, a3, a4, a5, a6⟩ := harr k hk xs hxs
    refine ⟨a, by rw [d5]; exact a1, ?_, (hdd k a).mpr a3, by rw [d5]; exact a2⟩
    rw [hdv k hk, a4, d5, hmax]
    simp [placeVal, Val.issingleton, a5, a3, axisShape]
  · have hord := axes_order (namedBy names x) 0 (by rw [namedBy_fst]; exact hn)
    rw [namedBy_fst] at hord
    refine hord.imp ?_
    intro k k' h a b ha hb
    exact h a b (by rw [← h6, (hdd k a).mp ha]; rfl) (by rw [← h6, (hdd k' b).mp hb]; rfl)
  · intro a ha
    rw [d5] at ha
    obtain ⟨k, hk, hka⟩ := axes_cover (namedBy names x) 0 a (by rw [namedBy_fst]; exact hn) ha
    rw [namedBy_fst] at hk
    refine ⟨k, hk, (hdd k a).mpr (join_eq_some.mp ?_)⟩
    rw [h6, hka]; simp

/-! ### C103 -/

theorem cont_dimless {v : FCont} {q : Req} (h : q ≠ .all) : q.dimless = (v.evaluate q).isscalar := by
  rcases q with _ | (_ | n) | a | xs
  · exact absurd rfl h
  · rename_i n
    rcases n with _ | n <;> rfl
  · rfl
  · rfl
  · rfl

theorem default_unasked {vs : List JVar} {values : Dict Str Req}
    (h : (vs.any fun v => v.isFloat) = true → ∀ kq ∈ values, kq.2 ≠ .count 0) :
    jDefault (vs.any JVar.isFloat) (Spec.separately values) = Spec.unasked vs := by
  unfold jDefault Spec.unasked
  rcases hf : vs.any fun v => v.isFloat with _ | _
  · simp [hf]
  · have hz : (Spec.separately values).any jGivenZero = false := by
      rw [List.any_eq_false]
      intro e he
      obtain ⟨kq, hkq, rfl⟩ := List.mem_map.mp he
      have := h hf kq hkq
      rcases hq : kq.2 with _ | n | a | xs <;> simp [jGivenZero, hq]
      rintro rfl
      exact this hq
    simp [hf, hz]

/-- C103: a field of distinctly named variables, asked for values one by one, gives the grid of
these values.  Variables may be left out, unless the field has a variable of float type and
`{0}` is asked for: then no variable may be.  Variables of float type are not asked for
`None`. -/
theorem C103_grid_partial (vs : List JVar) (values : Dict Str Req) (x : Str → VArg ℚ) (hne : vs ≠ [])
    (hn : (vs.map JVar.name).Nodup) (hal : ∀ v ∈ vs, v.name ∉ disallowed) (hv : values.keys.Nodup)
    (hk : ∀ k ∈ values.keys, k ∈ vs.map JVar.name)
    (hx : ∀ v ∈ vs, v.evaluate ((Dict.get? values v.name).getD (Spec.unasked vs)) = .ok (x v.name))
    (hpos : ∀ v ∈ vs, ∀ xs, x v.name = .array xs → xs ≠ [])
    (hzero : (∀ v ∈ vs, v.name ∈ values.keys) ∨
      ((vs.any fun v => v.isFloat) = true → ∀ kq ∈ values, kq.2 ≠ .count 0))
    (hfloat : ∀ v ∈ vs, v.isFloat = true → Dict.get? values v.name ≠ some .all) :
    ∃ name d, fieldCall vs (Spec.separately values) = .ok (some (name, d)) ∧
      Spec.Grid (vs.map JVar.name) x name d := by
  set q0 := jDefault (vs.any JVar.isFloat) (Spec.separately values) with hq0
  have hreq : ∀ v ∈ vs, (Dict.get? values v.name).getD q0 = (Dict.get? values v.name).getD (Spec.unasked vs) := by
    intro v hv'
    rcases hzero with h | h
    · obtain ⟨q, hq⟩ := Dict.get?_of_mem_keys (h v hv')
      rw [hq]; rfl
    · rw [hq0, default_unasked h]
  have hq : ∀ v ∈ vs, ∃ q, Dict.get? (asked vs values q0) v.name = some q ∧ v.evaluate q = .ok (x v.name) ∧
      q.dimless = (x v.name).isscalar := by
    intro v hv'
    refine ⟨_, get?_asked (List.mem_map.mpr ⟨v, hv', rfl⟩), by rw [hreq v hv']; exact hx v hv', ?_⟩
    rw [hreq v hv']
    have he := hx v hv'
    rcases v with w | w
    · exact dimless_iff he
    · have hne' : (Dict.get? values w.name).getD (Spec.unasked vs) ≠ .all := by
        have h1 : (vs.any fun v => v.isFloat) = true := List.any_eq_true.mpr ⟨_, hv', rfl⟩
        have h2 := hfloat _ hv' rfl
        rcases hg : Dict.get? values w.name with _ | q
        · simp [Spec.unasked, h1]
        · rw [JVar.name, hg] at h2
          simpa using h2
      rw [JVar.name] at he ⊢
      simp only [JVar.evaluate, Except.ok.injEq] at he
      rw [← he]
      exact cont_dimless hne'
  obtain ⟨vals, dims, e1, e2, e3, e4, e5, e6, e7⟩ := jEvaluate_singly hn (perm_asked hn hv hk) hq
  obtain ⟨d, d1, d2⟩ := grid_ok (by simpa using hne) hn
    (by intro k hk; obtain ⟨v, hv', rfl⟩ := List.mem_map.mp hk; exact hal v hv')
    (by intro k hk xs; obtain ⟨v, hv', rfl⟩ := List.mem_map.mp hk; exact hpos v hv' xs) e2 e3 e4 e5 e6 e7
  refine ⟨_, d, ?_, d2⟩
  have he : vs.isEmpty = false := by simpa using hne
  simp only [fieldCall, he, Bool.false_eq_true, if_false, jParse_separately hk, ← hq0, e1, d1, bind, Except.bind,
    pure, Except.pure]

/-- C103: a field without variables gives nothing, and a name that is none of the field's is
refused. -/
theorem C103_refused (vs : List JVar) (hne : vs ≠ []) (values : Dict Str Req) (k : Str) (hk : k ∈ values.keys)
    (hv : k ∉ vs.map JVar.name) :
    fieldCall [] (Spec.separately values) = .ok none ∧ fieldCall vs (Spec.separately values) = .error .assertion := by
  refine ⟨rfl, ?_⟩
  have he : vs.isEmpty = false := by simpa using hne
  have hp : ∀ l : Dict Str Req, k ∈ l.keys →
      (Spec.separately l).mapM (jParseEntry (vs.map JVar.name)) = .error .assertion := by
    intro l
    induction l with
    | nil => intro h; simp at h
    | cons kq l ih =>
      intro h
      simp only [Spec.separately, List.map_cons, List.mapM_cons] at ih ⊢
      by_cases hm : kq.1 ∈ vs.map JVar.name
      · have e : jParseEntry (vs.map JVar.name) ([kq.1], .one kq.2) = .ok ([kq.1], [kq.2]) := by
          simp [jParseEntry, hm]
        rw [e, ih ?_]
        · rfl
        · simp only [Dict.keys_cons, List.mem_cons] at h
          rcases h with rfl | h
          · exact absurd hm hv
          · exact h
      · have e : jParseEntry (vs.map JVar.name) ([kq.1], .one kq.2) = .error .assertion := by
          simp [jParseEntry, hm]
        rw [e]; rfl
  simp only [fieldCall, he, Bool.false_eq_true, if_false, jParse, hp values hk, bind, Except.bind]

/-- C103: each combination of the values stands at one place of the grid. -/
theorem C103_combinations {names : List Str} {x : Str → VArg ℚ} {name : Str} {d : Dist}
    (G : Spec.Grid names x name d) (c : Str → ℕ)
    (hc : ∀ k ∈ names, ∀ xs, x k = .array xs → c k < xs.length) :
    ∃! j, j ∈ idx d.shape ∧ ∀ k ∈ names, ∀ a, Dict.get? d.dims k = some (some a) → j[a]? = some (c k) := by
  have huniq : ∀ k ∈ names, ∀ k' ∈ names, ∀ a, Dict.get? d.dims k = some (some a) →
      Dict.get? d.dims k' = some (some a) → k = k' := by
    haveI : Std.Symm fun k k' : Str => ∀ a, Dict.get? d.dims k = some (some a) →
        Dict.get? d.dims k' = some (some a) → k = k' := ⟨fun k k' h a h1 h2 => (h a h2 h1).symm⟩
    have := List.Pairwise.forall_of_forall
      (R := fun k k' : Str => ∀ a, Dict.get? d.dims k = some (some a) → Dict.get? d.dims k' = some (some a) → k = k')
      (l := names) (fun k _ a _ _ => rfl)
      (G.axes.imp fun {k k'} h a h1 h2 => absurd (h a a h1 h2) (lt_irrefl a))
    exact fun k hk k' hk' => this hk hk'
  choose f hf1 hf2 using G.full
  have hget : ∀ k ∈ names, ∀ a, Dict.get? d.dims k = some (some a) →
      ∃ h : a < d.shape.length, f a h = k ∧ ∃ xs, x k = .array xs ∧ d.shape[a]? = some xs.length := by
    intro k hk a ha
    rcases hx : x k with b | xs
    · have := (G.number k hk b hx).2
      rw [ha] at this; simp at this
    · obtain ⟨b, b1, b2, b3, b4⟩ := G.array k hk xs hx
      rw [ha] at b3
      simp only [Option.some.injEq] at b3
      subst b3
      exact ⟨b1, huniq _ (hf1 a b1) k hk a (hf2 a b1) ha, xs, rfl, b4⟩
  refine ⟨List.ofFn fun a : Fin d.shape.length => c (f a a.2), ⟨?_, ?_⟩, ?_⟩
  · rw [mem_idx, List.forall₂_iff_get]
    refine ⟨by simp, ?_⟩
    intro i h1 h2
    obtain ⟨h3, _, xs, h5, h6⟩ := hget _ (hf1 i h2) i (hf2 i h2)
    simp only [List.get_eq_getElem, List.getElem_ofFn]
    have := hc _ (hf1 i h2) xs h5
    rw [List.getElem?_eq_getElem h2] at h6
    simp only [Option.some.injEq] at h6
    rw [h6]; exact this
  · intro k hk a ha
    obtain ⟨h, h1, _⟩ := hget k hk a ha
    rw [List.getElem?_ofFn, dif_pos h, h1]
  · rintro j ⟨hj1, hj2⟩
    have hl := length_of_mem_idx hj1
    apply List.ext_getElem?
    intro a
    by_cases h : a < d.shape.length
    · rw [hj2 _ (hf1 a h) a (hf2 a h), List.getElem?_ofFn, dif_pos h]
    · rw [List.getElem?_eq_none (by omega), List.getElem?_eq_none (by simp; omega)]

/-- A variable of float type with draws all alike. -/
noncomputable def steadyVar (k : Char) : FCont := ⟨[k], fun _ => 1, fun _ => [1, 2], fun _ => true, 1, .flt 1⟩

theorem steady_refused : fieldCall [.cont (steadyVar 'x'), .cont (steadyVar 'y'), .cont (steadyVar 'z')]
    (Spec.separately [(['x'], .count 0), (['z'], .array [1, 2])]) = .error .type := by
  rfl

theorem names_allowed (k : Char) : [k] ∉ disallowed := by
  simp [disallowed]

/-- C103 as intended fails: of three variables of float type, with `{0}` asked for the first,
values for the last and nothing for the one between, that one is drawn a single value but takes an
axis, and the call raises. -/
theorem C103_claim_fails : ¬ C103_claim := by
  intro h
  obtain ⟨name, d, h1, _⟩ := h [.cont (steadyVar 'x'), .cont (steadyVar 'y'), .cont (steadyVar 'z')]
    [(['x'], .count 0), (['z'], .array [1, 2])]
    (fun k => if k = ['z'] then .array [1, 2] else .scalar 1) (by simp) (by simp [JVar.name, steadyVar])
    (by intro v hv; fin_cases hv <;> exact names_allowed _) (by simp) (by simp [JVar.name, steadyVar])
    (by intro v hv
        fin_cases hv <;>
          simp [JVar.evaluate, FCont.evaluate, JVar.name, steadyVar, Dict.get?, Spec.unasked, JVar.isFloat])
    (by intro v hv xs
        fin_cases hv <;> simp [JVar.name, steadyVar] <;> rintro rfl <;> simp)
  rw [steady_refused] at h1
  simp at h1

/-- Non-vacuity: the same variables with a grid of the first, one value drawn of the second, which
is left out, and the values given for the last. -/
example : ∃ name d, fieldCall [.cont (steadyVar 'x'), .cont (steadyVar 'y'), .cont (steadyVar 'z')]
    (Spec.separately [(['z'], .array [5, 6, 7]), (['x'], .count 2)]) = .ok (some (name, d)) ∧
    name = ['x', ',', 'y', ',', 'z'] ∧ d.shape = [2, 3] ∧
    Dict.get? d.vals ['z'] = some (.arr [1, 3] [5, 6, 7]) := by
  obtain ⟨name, d, h1, G⟩ := C103_grid_partial [.cont (steadyVar 'x'), .cont (steadyVar 'y'), .cont (steadyVar 'z')]
    [(['z'], .array [5, 6, 7]), (['x'], .count 2)]
    (fun k => if k = ['z'] then .array [5, 6, 7] else if k = ['x'] then .array [1, 2] else .scalar 1)
    (by simp) (by simp [JVar.name, steadyVar])
    (by intro v hv; fin_cases hv <;> exact names_allowed _) (by simp) (by simp [JVar.name, steadyVar])
    (by intro v hv; fin_cases hv <;> rfl)
    (by intro v hv xs
        fin_cases hv <;> simp [JVar.name, steadyVar] <;> rintro rfl <;> simp)
    (Or.inr fun _ => by simp) (by intro v hv _; fin_cases hv <;> simp [JVar.name, steadyVar, Dict.get?])
  have hk := G.order ⟨['z'], by simp [JVar.name, steadyVar], _, rfl⟩
  have hn := G.name
  rw [hk] at hn
  obtain ⟨a, a1, a2, a3, a4⟩ := G.array ['x'] (by simp [JVar.name, steadyVar]) [1, 2] rfl
  obtain ⟨b, b1, b2, b3, b4⟩ := G.array ['z'] (by simp [JVar.name, steadyVar]) [5, 6, 7] rfl
  have hab : a < b := by
    have := G.axes
    simp only [JVar.name, steadyVar, List.map_cons, List.map_nil, List.pairwise_cons] at this
    exact this.1 ['z'] (by simp) a b a3 b3
  have hfull : ∀ i < d.shape.length, i = a ∨ i = b := by
    intro i hi
    obtain ⟨k, hk, hki⟩ := G.full i hi
    simp only [JVar.name, steadyVar, List.map_cons, List.map_nil, List.mem_cons, List.not_mem_nil, or_false] at hk
    rcases hk with rfl | rfl | rfl
    · rw [a3] at hki; simp at hki; exact Or.inl hki.symm
    · have := (G.number ['y'] (by simp [JVar.name, steadyVar]) 1 rfl).2
      rw [hki] at this; simp at this
    · rw [b3] at hki; simp at hki; exact Or.inr hki.symm
  have h0 : a = 0 := by rcases hfull 0 (by omega) with h | h <;> omega
  have hb : b = 1 := by
    by_contra hb
    rcases hfull 1 (by omega) with h | h <;> omega
  have hlen : d.shape.length = 2 := by
    by_contra hl
    rcases hfull 2 (by omega) with h | h <;> omega
  subst h0 hb
  refine ⟨name, d, h1, by rw [hn]; rfl, ?_, by rw [b2, hlen]; rfl⟩
  rcases hs : d.shape with _ | ⟨m, _ | ⟨n, _ | ⟨o, t⟩⟩⟩ <;> rw [hs] at hlen a4 b4 <;> simp at hlen a4 b4
  rw [a4, b4]

end Probayes
