/-
Decidable forms of the conditions on distributions, for the concrete examples
beside the theorems.
-/
import Verif.Spec.PDProduct

namespace Probayes

instance (k s : Str) : Decidable (∃ v, s = k ++ '=' :: v) :=
  decidable_of_iff ((k ++ ['=']).isPrefixOf s = true) <| by
    rw [List.isPrefixOf_iff_prefix]
    constructor
    · rintro ⟨t, ht⟩; exact ⟨t, by rw [← ht]; simp⟩
    · rintro ⟨t, ht⟩; exact ⟨t, by rw [ht]; simp⟩

instance (k s : Str) : Decidable (Spec.Entry k s) :=
  decidable_of_iff (s ≠ [] ∧ ',' ∉ s ∧ '|' ∉ s ∧ '(' ∉ s ∧ ')' ∉ s ∧
    ((∃ v, s = k ++ '=' :: v) ∧ k ≠ [] ∧ '=' ∉ k ∨ s = k ∧ ('=' ∉ k ∨ k.head? = some '=')))
    ⟨fun ⟨a, b, c, d, e, f⟩ => ⟨a, b, c, d, e, f⟩, fun ⟨a, b, c, d, e, f⟩ => ⟨a, b, c, d, e, f⟩⟩

instance (d : Dict Str Str) : Decidable (Spec.Side d) :=
  inferInstanceAs (Decidable (d.keys.Nodup ∧ ∀ kv ∈ d, Spec.Entry kv.1 kv.2))

/-- The array conditions of `PD.WF` for one value. -/
def arrayCheck (dist : Dist) (kv : Str × Val) : Bool :=
  kv.2.issingleton || match kv.2, Dict.get? dist.dims kv.1 with
    | .arr s data, some (some a) =>
      (data.length == 0 || data.length == s.foldl max 0) && dist.shape[a]? == some data.length
    | _, _ => false

/-- The scalar conditions of `PD.WF` for one value. -/
def singleCheck (fmt : Val → Str) (marg cond : Dict Str Str) (dist : Dist) (kv : Str × Val) : Bool :=
  !kv.2.issingleton || (decide (Dict.get? dist.dims kv.1 = some none) &&
    (decide (Dict.get? marg kv.1 = some (eqText fmt kv.1 kv.2)) ||
      decide (Dict.get? cond kv.1 = some (eqText fmt kv.1 kv.2))))

/-- Everything in `PD.WF` but the probabilities. -/
def PD.check (fmt : Val → Str) (d : PD) : Bool :=
  !d.vals.isEmpty && decide d.vals.keys.Nodup && d.vals.keys.all (fun k => decide (k ∉ disallowed)) &&
  decide (Spec.Side d.marg) && decide (Spec.Side d.cond) &&
  d.marg.keys.all (fun k => decide (k ∉ d.cond.keys)) &&
  d.vals.keys.all (fun k => decide (k ∈ d.marg.keys) || decide (k ∈ d.cond.keys)) &&
  d.marg.keys.all (fun k => decide (k ∈ d.vals.keys)) &&
  d.cond.keys.all (fun k => decide (k ∈ d.vals.keys)) &&
  decide d.dims.keys.Nodup && d.dims.keys.all (fun k => decide (k ∈ d.vals.keys)) &&
  d.vals.all (singleCheck fmt d.marg d.cond d.dist) && d.vals.all (arrayCheck d.dist) &&
  (List.range d.ndim).all (fun a => d.dims.keys.any fun k => d.axis k == some a) &&
  d.shape.length == d.ndim && d.dist.size == d.shape.prod &&
  d.dist.aresingleton == d.vals.map (fun kv => kv.2.issingleton) &&
  d.dist.issingleton == d.vals.all (fun kv => kv.2.issingleton) &&
  d.name == margcondStr d.marg d.cond

theorem PD.wf_of_check {fmt : Val → Str} {d : PD} (h : d.check fmt = true)
    (hp : d.prob.shape = d.shape) (hs : evalPscale d.pscale.spec = .ok d.pscale) : d.WF fmt := by
  simp only [PD.check, Bool.and_eq_true, List.all_eq_true, decide_eq_true_eq, beq_iff_eq,
    Bool.or_eq_true, Bool.not_eq_true', List.any_eq_true, List.mem_range] at h
  obtain ⟨⟨⟨⟨⟨⟨⟨⟨⟨⟨⟨⟨⟨⟨⟨⟨⟨⟨h1, h2⟩, h3⟩, h4⟩, h5⟩, h6⟩, h7⟩, h8⟩, h9⟩, h10⟩, h11⟩, h12⟩, h13⟩, h14⟩,
    h15⟩, h16⟩, h17⟩, h18⟩, h19⟩ := h
  refine { ne := ?_, nodup := h2, allowed := h3, margSide := h4, condSide := h5, disj := h6, keys := ?_,
           dimNodup := h10, dimKeys := h11, single := ?_, array := ?_, cover := ?_, rank := h15,
           size := h16, are := h17, is := h18, probShape := hp, stable := hs, name := h19 }
  · rintro h0; rw [h0] at h1; simp at h1
  · intro k
    refine ⟨h7 k, ?_⟩
    rintro (h | h)
    · exact h8 k h
    · exact h9 k h
  · intro k v hv hsv
    have := h12 (k, v) (Dict.get?_mem hv)
    simpa [singleCheck, hsv] using this
  · intro k v hv hsv
    have := h13 (k, v) (Dict.get?_mem hv)
    rw [arrayCheck, hsv, Bool.false_or] at this
    split at this
    · rename_i s data a he hd
      simp only [Bool.and_eq_true, Bool.or_eq_true, beq_iff_eq] at this
      simp only at he hd
      subst he
      exact ⟨a, s, data, rfl, fun h0 => this.1.resolve_left (by omega), hd, this.2⟩
    · simp at this
  · intro a ha
    obtain ⟨k, _, hk⟩ := h14 a ha
    exact ⟨k, hk⟩

/-- `Spec.OwnAxis` for all keys. -/
theorem own_of_check {fmt : Val → Str} {d : PD} (h : d.WF fmt)
    (hc : (d.dims.filterMap Prod.snd).Nodup) : ∀ k, Spec.OwnAxis d k := by
  have key : ∀ (l : Dict Str (Option ℕ)), (l.filterMap Prod.snd).Nodup → ∀ k k' a,
      (k, some a) ∈ l → (k', some a) ∈ l → k' = k := by
    intro l
    induction l with
    | nil => intro _ k k' a h; simp at h
    | cons x l ih =>
      intro hn k k' a h1 h2
      obtain ⟨kx, ox⟩ := x
      rcases ox with _ | b
      · simp only [List.filterMap_cons] at hn
        simp only [List.mem_cons, Prod.mk.injEq, reduceCtorEq, and_false, false_or] at h1 h2
        exact ih hn k k' a h1 h2
      · simp only [List.filterMap_cons, List.nodup_cons] at hn
        have hm : ∀ k, (k, some a) ∈ l → a ∈ l.filterMap Prod.snd := fun k h =>
          List.mem_filterMap.mpr ⟨_, h, rfl⟩
        simp only [List.mem_cons, Prod.mk.injEq, Option.some.injEq] at h1 h2
        rcases h1 with ⟨rfl, rfl⟩ | h1 <;> rcases h2 with ⟨rfl, h⟩ | h2
        · rfl
        · exact absurd (hm _ h2) hn.1
        · subst h; exact absurd (hm _ h1) hn.1
        · exact ih hn.2 k k' a h1 h2
  intro k k' a hk hk'
  exact key d.dims hc k k' a (Dict.get?_mem (join_eq_some.mp hk)) (Dict.get?_mem (join_eq_some.mp hk'))

/-- `Spec.Ordered` from the list of axes in key order. -/
theorem ordered_of_check {d : PD}
    (hc : d.keylist.Pairwise fun k k' => ((d.axis k).getD 0 ≤ (d.axis k').getD 0 ∨
      d.axis k = none ∨ d.axis k' = none)) : Spec.Ordered d := by
  refine hc.imp ?_
  intro k k' h a b ha hb
  rw [ha, hb] at h
  simpa using h

instance (args : List PD) (k : Str) : Decidable (Spec.Unmet args k) :=
  inferInstanceAs (Decidable (∀ b ∈ args, k ∉ b.marg.keys))

instance (args : List PD) (b : PD) : Decidable (∃ k ∈ b.cond.keys, Spec.Unmet args k) :=
  List.decidableBEx _ _

/-- `Spec.Plainly.sets` when no value is a set of one integer. -/
theorem sets_of_check {args : List PD}
    (h : ∀ a ∈ args, ∀ kv ∈ a.vals, kv.2.isunitsetint = false) :
    args.Pairwise fun a b => ∀ k n, a.values k = some (.setint n) → k ∉ b.keylist := by
  refine List.Pairwise.imp_of_mem (R := fun _ _ => True) ?_ (List.pairwise_of_forall fun _ _ => trivial)
  intro a b ha _ _ k n hv
  exfalso
  obtain ⟨v, h1, h2⟩ := Option.map_eq_some_iff.mp hv
  have := h a ha (k, v) (Dict.get?_mem h1)
  rcases v with x | x | x | _ | ⟨s, d⟩ | _ <;> simp_all [Val.flat, Val.isunitsetint]
  rcases s with _ | ⟨n, s⟩ <;> simp [Val.flat] at h2

end Probayes
