/-
C112: icons and the members of Sympy objects seen through them.
-/
import Verif.Model.Icon

namespace Probayes

variable {V : Type}

/-! ### Specification -/

/-- The Sympy object that an argument of `set_icon` stands for, if it is accepted. -/
def Spec.symbolOf (mk : Str → Py (SymObj V)) : IconArg V → Option (SymObj V)
  | .sym s => if s.callable then none else some s
  | .text t => (mk t).toOption
  | .other _ => none

/-- The value of a member of a Sympy object. -/
def Spec.memberOf (s : SymObj V) (m : Str) : Option V := (s.members.get? m).join

/-- The member that is never read. -/
def Spec.unread : Str := "expr_free_symbols".toList

theorem unread_eq : Spec.unread = iconSkipped := rfl

/-- Names are listed once by `dir`. -/
def Spec.Listed (s : SymObj V) : Prop := s.members.keys.Nodup

/-! ### Copying -/

theorem copy_own (ms : Dict Str (Option V)) (o : IconObj V) :
    (o.copy ms).own = o.own ∧ (o.copy ms).icon = o.icon := by
  induction ms generalizing o with
  | nil => exact ⟨rfl, rfl⟩
  | cons mv ms ih =>
    obtain ⟨m, v⟩ := mv
    unfold IconObj.copy
    split
    · exact ih o
    split
    · exact ih o
    cases v with
    | none => exact ih o
    | some v => exact ih _

theorem copy_get (ms : Dict Str (Option V)) (hn : ms.keys.Nodup) (o : IconObj V) (m : Str) :
    (o.copy ms).copied.get? m =
      (o.copied.get? m).or (if m ∈ o.own ∨ m = iconSkipped then none else (Dict.get? ms m).join) := by
  induction ms generalizing o with
  | nil => simp [IconObj.copy, Dict.get?]
  | cons mv ms ih =>
    obtain ⟨k, v⟩ := mv
    rw [Dict.keys_cons, List.nodup_cons] at hn
    have hrest : k = m → Dict.get? ms m = none := fun h => by
      rw [Dict.get?_eq_none, ← h]
      exact hn.1
    unfold IconObj.copy
    split
    · rename_i hk
      rw [ih hn.2 o]
      by_cases hm : k = m
      · simp [← hm, hk]
      · simp [Dict.get?, hm]
    rename_i hk
    split
    · rename_i hh
      rw [ih hn.2 o]
      by_cases hm : k = m
      · subst hm
        rw [IconObj.hasattr, Bool.or_eq_true, decide_eq_true_eq, decide_eq_true_eq] at hh
        rcases hh with hh | hh
        · simp [hh]
        · obtain ⟨x, hx⟩ := Option.isSome_iff_exists.1 (Dict.get?_isSome.2 hh)
          simp [hx]
      · simp [Dict.get?, hm]
    rename_i hh
    rw [Bool.not_eq_true, IconObj.hasattr, Bool.or_eq_false_iff, decide_eq_false_iff_not, decide_eq_false_iff_not] at hh
    cases v with
    | none =>
      simp only
      rw [ih hn.2 o]
      by_cases hm : k = m
      · simp [hrest hm, Dict.get?, hm]
      · simp [Dict.get?, hm]
    | some v =>
      simp only
      rw [ih hn.2 _, Dict.get?_set]
      by_cases hm : k = m
      · subst hm
        simp [Dict.get?, hh.1, hk, Dict.get?_eq_none.2 hh.2]
      · simp [Dict.get?, hm, Ne.symm hm]

theorem setIcon_own (mk : Str → Py (SymObj V)) (o : IconObj V) (a : IconArg V) : (o.setIcon mk a).1.own = o.own := by
  unfold IconObj.setIcon
  cases a with
  | sym s =>
    simp only
    split
    · exact (copy_own _ _).1
    · rfl
  | text t =>
    simp only
    split
    · exact (copy_own _ _).1
    · rfl
  | other n => rfl

theorem setIcon_get (mk : Str → Py (SymObj V)) (o : IconObj V) (a : IconArg V)
    (ha : ∀ s, Spec.symbolOf mk a = some s → Spec.Listed s) (m : Str) :
    (o.setIcon mk a).1.copied.get? m = (o.copied.get? m).or
      (if m ∈ o.own ∨ m = iconSkipped then none else (Spec.symbolOf mk a).bind fun s => Spec.memberOf s m) := by
  unfold IconObj.setIcon
  cases a with
  | sym s =>
    by_cases hc : s.callable = true
    · simp [IconArg.isIconic, Spec.symbolOf, hc]
    · have := ha s (by simp [Spec.symbolOf, hc])
      simp only [IconArg.isIconic, hc, Bool.not_false, if_true]
      rw [copy_get _ this]
      simp [Spec.symbolOf, hc, Spec.memberOf]
  | text t =>
    simp only
    cases hk : mk t with
    | error e => simp [Spec.symbolOf, hk, Except.toOption]
    | ok s =>
      have := ha s (by simp [Spec.symbolOf, hk, Except.toOption])
      simp only
      rw [copy_get _ this]
      simp [Spec.symbolOf, hk, Except.toOption, Spec.memberOf]
  | other n => simp [Spec.symbolOf]

/-! ### The claim and what holds -/

/-- C112, in full: whatever calls of `set_icon` were made, if the last was accepted, the members of
its object that the class does not define itself are seen as members of the icon. -/
def C112_claim : Prop :=
  ∀ (V : Type) (mk : Str → Py (SymObj V)) (own : List Str) (as : List (IconArg V)) (a : IconArg V) (s : SymObj V),
    (∀ b ∈ as ++ [a], ∀ s, Spec.symbolOf mk b = some s → Spec.Listed s) → Spec.symbolOf mk a = some s →
    ∀ m v, m ∉ own → m ≠ Spec.unread → Spec.memberOf s m = some v →
      ((IconObj.run mk ⟨own, none, []⟩ (as ++ [a])).getattr m) = .ok v

/-- A symbol and another, which differ in `is_positive`. -/
theorem C112_claim_fails : ¬ C112_claim := by
  intro h
  let pos : Str := "is_positive".toList
  have := h Bool (fun _ => .error .value) [] [.sym ⟨0, false, .ok true, [(pos, some false)]⟩]
    (.sym ⟨1, false, .ok true, [(pos, some true)]⟩) ⟨1, false, .ok true, [(pos, some true)]⟩
    (by
      intro b hb s hs
      simp only [List.cons_append, List.nil_append, List.mem_cons, List.not_mem_nil, or_false] at hb
      rcases hb with rfl | rfl <;> (simp [Spec.symbolOf] at hs; subst hs; simp [Spec.Listed]))
    rfl pos true (by simp) (by decide) rfl
  revert this
  decide

/-- C112, for what holds: a member is that of the first accepted object that had it; the members
that the class defines, and `expr_free_symbols`, are never copied. -/
theorem C112_members_partial (mk : Str → Py (SymObj V)) (own : List Str) (as : List (IconArg V))
    (ha : ∀ a ∈ as, ∀ s, Spec.symbolOf mk a = some s → Spec.Listed s) (m : Str) :
    (IconObj.run mk ⟨own, none, []⟩ as).getattr m =
      if m ∈ own ∨ m = Spec.unread then .error .attribute
      else match (as.filterMap (Spec.symbolOf mk)).findSome? fun s => Spec.memberOf s m with
        | some v => .ok v
        | none => .error .attribute := by
  rw [unread_eq]
  have key : ∀ (as : List (IconArg V)) (o : IconObj V), (∀ a ∈ as, ∀ s, Spec.symbolOf mk a = some s → Spec.Listed s) →
      (IconObj.run mk o as).copied.get? m = (o.copied.get? m).or (if m ∈ o.own ∨ m = iconSkipped then none
        else (as.filterMap (Spec.symbolOf mk)).findSome? fun s => Spec.memberOf s m) := by
    intro as
    induction as with
    | nil => intro o _; simp [IconObj.run]
    | cons a as ih =>
      intro o h
      show (IconObj.run mk (o.setIcon mk a).1 as).copied.get? m = _
      rw [ih _ fun b hb => h b (List.mem_cons_of_mem _ hb), setIcon_own,
        setIcon_get mk o a (h a List.mem_cons_self)]
      by_cases hm : m ∈ o.own ∨ m = iconSkipped
      · simp [hm]
      · simp only [hm, if_false]
        cases hs : Spec.symbolOf mk a with
        | none => simp [List.filterMap_cons, hs]
        | some s =>
          rw [List.filterMap_cons, hs]
          simp only [List.findSome?_cons, Option.bind_some]
          cases o.copied.get? m <;> cases Spec.memberOf s m <;> rfl
  rw [IconObj.getattr, key as _ ha]
  simp only [Dict.get?, Option.none_or]
  by_cases hm : m ∈ own ∨ m = iconSkipped
  · simp [hm]
  · simp only [hm, if_false]
    cases (List.filterMap (Spec.symbolOf mk) as).findSome? fun s => Spec.memberOf s m <;> rfl

/-- C112: so the members of the first object are all seen. -/
theorem C112_first (mk : Str → Py (SymObj V)) (own : List Str) (a : IconArg V) (s : SymObj V)
    (hs : Spec.symbolOf mk a = some s) (hl : Spec.Listed s) (m : Str) (v : V) (hm : m ∉ own) (hk : m ≠ Spec.unread)
    (hv : Spec.memberOf s m = some v) (as : List (IconArg V))
    (has : ∀ b ∈ as, ∀ s, Spec.symbolOf mk b = some s → Spec.Listed s) :
    (IconObj.run mk ⟨own, none, []⟩ (a :: as)).getattr m = .ok v := by
  rw [C112_members_partial mk own (a :: as) (by
    intro b hb t ht
    rcases List.mem_cons.1 hb with rfl | hb
    · rw [hs] at ht
      cases ht
      exact hl
    · exact has b hb t ht)]
  rw [if_neg (by simp [hm, hk]), List.filterMap_cons, hs]
  simp only [List.findSome?_cons, hv]

/-- C112: `icon[:]` gives the last object passed, or the symbol of the last name; also if it was
refused.  No other index is accepted. -/
theorem C112_getitem (mk : Str → Py (SymObj V)) (o : IconObj V) (as : List (IconArg V)) (a : IconArg V) :
    (IconObj.run mk o (as ++ [a])).getitem true =
      .ok (some (match Spec.symbolOf mk a with
        | some s => .sym s
        | none => a)) ∧
    (IconObj.run mk o (as ++ [a])).getitem false = .error .assertion := by
  refine ⟨?_, rfl⟩
  have : IconObj.run mk o (as ++ [a]) = ((IconObj.run mk o as).setIcon mk a).1 := by
    simp [IconObj.run, List.foldl_append]
  rw [this]
  generalize IconObj.run mk o as = o'
  simp only [IconObj.getitem, if_true]
  unfold IconObj.setIcon
  cases a with
  | sym s =>
    cases hc : s.callable with
    | false => simp [IconArg.isIconic, hc, Spec.symbolOf, (copy_own _ _).2]
    | true => simp [IconArg.isIconic, hc, Spec.symbolOf]
  | text t =>
    cases hk : mk t with
    | ok s => simp [hk, Spec.symbolOf, Except.toOption, (copy_own _ _).2]
    | error e => simp [hk, Spec.symbolOf, Except.toOption]
  | other n => simp [Spec.symbolOf]

/-- C112: what is neither a string nor a Sympy object that cannot be called raises TypeError; calls are
accepted in all other cases, but for names that Sympy refuses. -/
theorem C112_refused (mk : Str → Py (SymObj V)) (o : IconObj V) (a : IconArg V) :
    ((o.setIcon mk a).2 = none ↔ (Spec.symbolOf mk a).isSome) ∧
    ((∀ t, a ≠ .text t) → Spec.symbolOf mk a = none → (o.setIcon mk a).2 = some .type) ∧
    (∀ t e, a = .text t → mk t = .error e → (o.setIcon mk a).2 = some e) ∧
    (Spec.symbolOf mk a = none → ∀ m, (o.setIcon mk a).1.getattr m = o.getattr m) := by
  cases a with
  | sym s =>
    cases hc : s.callable <;> simp [IconObj.setIcon, IconArg.isIconic, hc, Spec.symbolOf, IconObj.getattr]
  | text t =>
    cases hk : mk t with
    | ok s =>
      simp only [IconObj.setIcon, hk, Spec.symbolOf, Except.toOption]
      refine ⟨by simp, by simp, ?_, by simp⟩
      rintro t' e h h'
      cases h
      rw [hk] at h'
      cases h'
    | error e' =>
      simp only [IconObj.setIcon, hk, Spec.symbolOf, Except.toOption]
      refine ⟨by simp, fun h => absurd rfl (h t), ?_, fun _ _ => rfl⟩
      rintro t' e h h'
      cases h
      rw [hk] at h'
      cases h'
      rfl
  | other n => simp [IconObj.setIcon, Spec.symbolOf, IconObj.getattr]

/-! ### Variables -/

/-- C112: `set_icon` without an argument takes the symbol of the present name. -/
theorem C112_default (mk : Str → Py (SymObj V)) (v : VarObj V) (t : Str) (s : SymObj V) (hs : mk t = .ok s)
    (hd : v.dexpr = none) :
    (((v.setName t).setIcon mk none).1.getitem true) = .ok (some (.sym s)) ∧
    ((v.setName t).setIcon mk none).2 = none := by
  simp [VarObj.setIcon, VarObj.setName, IconObj.setIcon, hs, VarObj.getitem, hd, (copy_own _ _).2]

/-- C112: the symbol of a variable stays when it is renamed. -/
theorem C112_renamed (mk : Str → Py (SymObj V)) (own : List Str) (st : Bool) (t u : Str) (s : SymObj V) (hs : mk t = .ok s) :
    ((VarObj.init mk own st t).1.setName u).getName = .text u ∧
    ((VarObj.init mk own st t).1.setName u).getitem true = .ok (some (.sym s)) := by
  simp [VarObj.init, VarObj.setName, VarObj.getName, IconObj.setIcon, hs, VarObj.getitem, (copy_own _ _).2]

/-- C112: a deterministic expression stands in the place of the symbol if the variable is not
stochastic and the expression is not zero. -/
theorem C112_dexpr (v : VarObj V) (d : SymObj V) :
    (v.stochastic = true → (v.setDexpr (some d)).getitem true = .ok v.obj.icon) ∧
    (v.stochastic = false → d.truth = .ok true → (v.setDexpr (some d)).getitem true = .ok (some (.sym d))) ∧
    (v.stochastic = false → d.truth = .ok false → (v.setDexpr (some d)).getitem true = .ok v.obj.icon) ∧
    (v.stochastic = false → ∀ e, d.truth = .error e → (v.setDexpr (some d)).getitem true = .error e) ∧
    (v.setDexpr none).getitem true = .ok v.obj.icon := by
  refine ⟨fun h => ?_, fun h ht => ?_, fun h ht => ?_, fun h e ht => ?_, ?_⟩ <;>
    simp_all [VarObj.setDexpr, VarObj.getitem]

/-- C112: the attribute `dexpr` should give the expression that it was set to. -/
def C112_dexpr_claim : Prop :=
  ∀ (V : Type) (v : VarObj V) (d : SymObj V), v.stochastic = false → (v.setDexpr (some d)).getDexpr = .expr (some d)

/-- It gives the name of the variable. -/
theorem C112_dexpr_claim_fails : ¬ C112_dexpr_claim ∧
    ∀ (v : VarObj V) (d : Option (SymObj V)), (v.setDexpr d).getDexpr = .text v.name := by
  refine ⟨fun h => ?_, fun v d => rfl⟩
  have := h Unit ⟨⟨[], none, []⟩, ['x'], false, none⟩ ⟨0, false, .ok true, []⟩ rfl
  simp [VarObj.getDexpr, VarObj.getName] at this

/-- Two symbols and a refused number: the icon is the number, the member that of the first symbol. -/
example : let pos : Str := "is_positive".toList
    let o : IconObj Bool := IconObj.run (fun _ => .error .value) ⟨[['n', 'a', 'm', 'e']], none, []⟩
      [.sym ⟨0, false, .ok true, [(['n', 'a', 'm', 'e'], some true), (pos, some false)]⟩,
       .sym ⟨1, false, .ok true, [(pos, some true), (['d'], some true)]⟩, .other 3]
    o.getattr pos = .ok false ∧ o.getattr ['d'] = .ok true ∧ o.getattr ['n', 'a', 'm', 'e'] = .error .attribute := by
  decide

end Probayes
