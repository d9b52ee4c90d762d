/-
C115: expressions that are set again.
-/
import Verif.Model.ExprSet
import Mathlib.Tactic.NormNum

namespace Probayes

/-! ### Specification -/

/-- The value of an expression depends on its symbols only. -/
def Spec.Symbols (e : SymFn) : Prop := e.syms.Nodup ∧ ∀ a b : Str → ℝ, (∀ k ∈ e.syms, a k = b k) → e.fn a = e.fn b

/-- All the symbols of an expression have a value. -/
def Spec.Supplied (e : SymFn) (vals : Dict Str ℝ) : Prop := ∀ k ∈ e.syms, ∃ x, vals.get? k = some x

/-- The assignment of a dictionary. -/
noncomputable def Spec.at (vals : Dict Str ℝ) : Str → ℝ := fun k => match vals.get? k with
  | some x => x
  | none => 0

theorem at_eq (vals : Dict Str ℝ) : assigned vals = Spec.at vals := by
  funext k
  unfold assigned Spec.at
  cases vals.get? k <;> rfl

/-! ### Values in order -/

theorem exprOrdered_ok (vals : Dict Str ℝ) (ks : List Str) (h : ∀ k ∈ ks, ∃ x, vals.get? k = some x) :
    exprOrdered vals ks = .ok (ks.map (assigned vals)) := by
  induction ks with
  | nil => rfl
  | cons k ks ih =>
    obtain ⟨x, hx⟩ := h k List.mem_cons_self
    rw [exprOrdered, hx, ih fun k' hk' => h k' (List.mem_cons_of_mem _ hk')]
    simp [assigned, hx]

theorem exprOrdered_error (vals : Dict Str ℝ) (ks : List Str) (h : ¬ ∀ k ∈ ks, ∃ x, vals.get? k = some x) :
    exprOrdered vals ks = .error .key := by
  induction ks with
  | nil => simp at h
  | cons k ks ih =>
    rw [exprOrdered]
    cases hk : vals.get? k with
    | none => rfl
    | some x =>
      have : ¬ ∀ k ∈ ks, ∃ x, vals.get? k = some x := fun h' => h (by
        intro k' hk'
        rcases List.mem_cons.1 hk' with rfl | hk'
        · exact ⟨x, hk⟩
        · exact h' k' hk')
      rw [ih this]

theorem zip_get (ks : List Str) (hn : ks.Nodup) (f : Str → ℝ) (k : Str) (hk : k ∈ ks) :
    assigned (ks.zip (ks.map f)) k = f k := by
  have : Dict.get? (ks.zip (ks.map f)) k = some (f k) := by
    induction ks with
    | nil => simp at hk
    | cons a ks ih =>
      rw [List.nodup_cons] at hn
      rw [List.map_cons, List.zip_cons_cons]
      by_cases h : a = k
      · subst h
        simp [Dict.get?]
      · rw [Dict.get?, if_neg h]
        exact ih hn.2 ((List.mem_cons.1 hk).resolve_left (Ne.symm h))
  simp [assigned, this]

theorem substituted_given (e : SymFn) (vals : Dict Str ℝ) (h : Spec.Supplied e vals) :
    e.substituted vals = .num (e.fn (Spec.at vals)) := by
  have : (e.syms.all fun k => (vals.get? k).isSome) = true := by
    rw [List.all_eq_true]
    intro k hk
    obtain ⟨x, hx⟩ := h k hk
    simp [hx]
  rw [SymFn.substituted, if_pos this, at_eq]

theorem held_fields (e : SymFn) (es : List SymFn) :
    (ExprHeld.run e es).cur = (e :: es).getLast (List.cons_ne_nil _ _) ∧ (ExprHeld.run e es).subs = e ∧
    (ExprHeld.run e es).arrays = (e :: es).find? fun f => !f.syms.isEmpty && f.vec := by
  have key : ∀ (es : List SymFn) (s : ExprHeld), (es.foldl ExprHeld.set s).subs = s.subs ∧
      (es.foldl ExprHeld.set s).cur = (s.cur :: es).getLast (List.cons_ne_nil _ _) ∧
      (es.foldl ExprHeld.set s).arrays = s.arrays.or (es.find? fun f => !f.syms.isEmpty && f.vec) := by
    intro es
    induction es with
    | nil => intro s; simp
    | cons f es ih =>
      intro s
      obtain ⟨h1, h2, h3⟩ := ih (s.set f)
      refine ⟨h1, ?_, ?_⟩
      · rw [List.foldl_cons, h2]
        rfl
      · rw [List.foldl_cons, h3, List.find?_cons]
        simp only [ExprHeld.set]
        cases s.arrays with
        | some g => rfl
        | none =>
          cases hs : f.syms.isEmpty <;> cases hv : f.vec <;> simp [efunArrays, hs, hv]
  obtain ⟨h1, h2, h3⟩ := key es (ExprHeld.new e)
  refine ⟨h2, h1, ?_⟩
  unfold ExprHeld.run
  rw [h3, List.find?_cons]
  cases hs : e.syms.isEmpty <;> cases hv : e.vec <;> simp [ExprHeld.new, efunArrays, hs, hv]

/-! ### The claim and what holds -/

/-- C115, in full: calls evaluate the expression that was set last. -/
def C115_claim : Prop :=
  ∀ (e : SymFn) (es : List SymFn) (f : SymFn) (vals : Dict Str ℝ), Spec.Symbols e → (∀ g ∈ es, Spec.Symbols g) →
    Spec.Symbols f → Spec.Supplied f vals →
    (ExprHeld.run e (es ++ [f])).callNum vals = .ok (.num (f.fn (Spec.at vals))) ∧
    (f.syms ≠ [] → (ExprHeld.run e (es ++ [f])).callEntry vals = .ok (f.fn (Spec.at vals)))

/-- `x + 1`, then `2 x`, at three: four. -/
theorem C115_claim_fails : ¬ C115_claim ∧
    (ExprHeld.run ⟨[['x']], fun a => a ['x'] + 1, true⟩ [⟨[['x']], fun a => 2 * a ['x'], true⟩]).callNum [(['x'], 3)] =
      .ok (.num 4) := by
  have hv : (ExprHeld.run ⟨[['x']], fun a => a ['x'] + 1, true⟩ [⟨[['x']], fun a => 2 * a ['x'], true⟩]).callNum
      [(['x'], 3)] = .ok (.num 4) := by
    simp [ExprHeld.run, ExprHeld.new, ExprHeld.set, ExprHeld.callNum, exprOrdered, SymFn.substituted, assigned, Dict.get?]
    norm_num
  refine ⟨fun h => ?_, hv⟩
  have := (h ⟨[['x']], fun a => a ['x'] + 1, true⟩ [] ⟨[['x']], fun a => 2 * a ['x'], true⟩ [(['x'], 3)]
    ⟨by simp, fun a b hab => by simp [hab]⟩ (by simp) ⟨by simp, fun a b hab => by simp [hab]⟩
    (by intro k hk; simp at hk; subst hk; exact ⟨3, by simp [Dict.get?]⟩)).1
  rw [List.nil_append, hv] at this
  simp only [Except.ok.injEq, ExprGot.num.injEq, Spec.at, Dict.get?, if_true] at this
  norm_num at this

/-- C115, for what holds: an expression that is set once is evaluated, with numbers and, entry by entry, with arrays. -/
theorem C115_once_partial (e : SymFn) (vals : Dict Str ℝ) (he : Spec.Symbols e) (hv : Spec.Supplied e vals) :
    (ExprHeld.run e []).callNum vals = .ok (.num (e.fn (Spec.at vals))) ∧
    (ExprHeld.run e []).callEntry vals = .ok (e.fn (Spec.at vals)) := by
  have ho := exprOrdered_ok vals e.syms hv
  have hsub := substituted_given e vals hv
  constructor
  · simp only [ExprHeld.run, List.foldl_nil, ExprHeld.new, ExprHeld.callNum, ho, hsub]
  · simp only [ExprHeld.run, List.foldl_nil, ExprHeld.new, ExprHeld.callEntry, ho, hsub]
    cases ha : efunArrays e none with
    | none => rfl
    | some f =>
      have hf : f = e := by
        cases hs : e.syms.isEmpty <;> cases hv : e.vec <;> simp [efunArrays, hs, hv] at ha
        exact ha.symm
      subst hf
      simp only [List.length_map, if_true, Except.ok.injEq]
      refine he.2 _ _ fun k hk => ?_
      rw [zip_get _ he.1 _ _ hk, at_eq]

/-- C115: whatever is set later, numbers are put into the first expression, of which symbols may be left; the names that must
be given are those of the last. -/
theorem C115_numbers (e : SymFn) (es : List SymFn) (vals : Dict Str ℝ) :
    let l := (e :: es).getLast (List.cons_ne_nil _ _)
    (¬ Spec.Supplied l vals → (ExprHeld.run e es).callNum vals = .error .key) ∧
    (Spec.Supplied l vals → Spec.Supplied e vals → (ExprHeld.run e es).callNum vals = .ok (.num (e.fn (Spec.at vals)))) ∧
    (Spec.Supplied l vals → ¬ Spec.Supplied e vals → (ExprHeld.run e es).callNum vals = .ok .symbolic) := by
  obtain ⟨h1, h2, -⟩ := held_fields e es
  refine ⟨fun h => ?_, fun h h' => ?_, fun h h' => ?_⟩
  · rw [ExprHeld.callNum, h1, exprOrdered_error vals _ h]
  · rw [ExprHeld.callNum, h1, exprOrdered_ok vals _ h, h2]
    simp only
    rw [substituted_given e vals h']
  · rw [ExprHeld.callNum, h1, exprOrdered_ok vals _ h, h2]
    have : ¬ (e.syms.all fun k => (vals.get? k).isSome) = true := fun hh => h' fun k hk => by
      rw [List.all_eq_true] at hh
      exact Option.isSome_iff_exists.1 (hh k hk)
    simp only
    rw [SymFn.substituted, if_neg this]

/-- C115: arrays are put into the first expression of which a function of arrays could be made, by position: the `i`th symbol of
that expression has the value given for the `i`th symbol of the last. -/
theorem C115_arrays (e : SymFn) (es : List SymFn) (vals : Dict Str ℝ) (g : SymFn) (hg : Spec.Symbols g)
    (hfirst : (e :: es).find? (fun f => !f.syms.isEmpty && f.vec) = some g)
    (hv : Spec.Supplied ((e :: es).getLast (List.cons_ne_nil _ _)) vals) :
    let l := (e :: es).getLast (List.cons_ne_nil _ _)
    (l.syms.length ≠ g.syms.length → (ExprHeld.run e es).callEntry vals = .error .type) ∧
    (l.syms.length = g.syms.length → ∀ a : Str → ℝ,
      (∀ i (hi : i < g.syms.length) (hi' : i < l.syms.length), a g.syms[i] = Spec.at vals l.syms[i]) →
      (ExprHeld.run e es).callEntry vals = .ok (g.fn a)) := by
  obtain ⟨h1, -, h3⟩ := held_fields e es
  rw [hfirst] at h3
  refine ⟨fun h => ?_, fun h a ha => ?_⟩
  · rw [ExprHeld.callEntry, h1, exprOrdered_ok vals _ hv, h3]
    simp [h]
  · rw [ExprHeld.callEntry, h1, exprOrdered_ok vals _ hv, h3]
    simp only [List.length_map, h, if_true, Except.ok.injEq]
    refine hg.2 _ _ fun k hk => ?_
    obtain ⟨i, hi, rfl⟩ := List.getElem_of_mem hk
    have hi' : i < ((e :: es).getLast (List.cons_ne_nil _ _)).syms.length := by rw [h]; exact hi
    have hlist : ((e :: es).getLast (List.cons_ne_nil _ _)).syms.map (assigned vals) = g.syms.map a := by
      apply List.ext_getElem
      · simp [h]
      · intro j hj hj'
        rw [List.length_map] at hj hj'
        rw [List.getElem_map, List.getElem_map, ha j hj' hj]
        exact congrFun (at_eq vals) _
    rw [hlist, zip_get _ hg.1 _ _ (List.getElem_mem hi)]

/-- C115: as long as no function of arrays could be made, the entries of arrays are put into the first expression, which must not
leave symbols.  The names that must be given are those of the last in any case. -/
theorem C115_entries (e : SymFn) (es : List SymFn) (vals : Dict Str ℝ) :
    let l := (e :: es).getLast (List.cons_ne_nil _ _)
    (¬ Spec.Supplied l vals → (ExprHeld.run e es).callEntry vals = .error .key) ∧
    (Spec.Supplied l vals → (∀ f ∈ e :: es, f.syms = [] ∨ f.vec = false) →
      (Spec.Supplied e vals → (ExprHeld.run e es).callEntry vals = .ok (e.fn (Spec.at vals))) ∧
      (¬ Spec.Supplied e vals → (ExprHeld.run e es).callEntry vals = .error .type)) := by
  obtain ⟨h1, h2, h3⟩ := held_fields e es
  refine ⟨fun h => ?_, fun h hf => ?_⟩
  · rw [ExprHeld.callEntry, h1, exprOrdered_error vals _ h]
  · have hnone : (e :: es).find? (fun f => !f.syms.isEmpty && f.vec) = none := by
      rw [List.find?_eq_none]
      intro f hm
      rcases hf f hm with h | h <;> simp [h]
    rw [hnone] at h3
    refine ⟨fun h' => ?_, fun h' => ?_⟩
    · rw [ExprHeld.callEntry, h1, exprOrdered_ok vals _ h, h2, h3]
      simp only
      rw [substituted_given e vals h']
    · rw [ExprHeld.callEntry, h1, exprOrdered_ok vals _ h, h2, h3]
      have : ¬ (e.syms.all fun k => (vals.get? k).isSome) = true := fun hh => h' fun k hk => by
        rw [List.all_eq_true] at hh
        exact Option.isSome_iff_exists.1 (hh k hk)
      simp only
      rw [SymFn.substituted, if_neg this]

/-- C115: what is shown is the last expression. -/
theorem C115_shown (e : SymFn) (es : List SymFn) (f : SymFn) :
    (ExprHeld.run e (es ++ [f])).getitem true = .ok f ∧ (ExprHeld.run e []).getitem true = .ok e ∧
    (ExprHeld.run e es).getitem false = .error .assertion := by
  refine ⟨?_, rfl, rfl⟩
  have := (held_fields e (es ++ [f])).1
  rw [ExprHeld.getitem, if_pos rfl, this]
  simp

/-- `x - y`, of which functions can be made, after the constant one: numbers give one, arrays the difference. -/
example : let e : SymFn := ⟨[], fun _ => 1, true⟩
    let f : SymFn := ⟨[['x'], ['y']], fun a => a ['x'] - a ['y'], true⟩
    Spec.Symbols e ∧ Spec.Symbols f ∧ Spec.Supplied f [(['x'], 5), (['y'], 3)] ∧
    [e, f].find? (fun f => !f.syms.isEmpty && f.vec) = some f := by
  refine ⟨⟨by simp, fun a b _ => rfl⟩, ⟨by simp, fun a b h => ?_⟩, ?_, by simp⟩
  · simp only
    rw [h ['x'] (by simp), h ['y'] (by simp)]
  · intro k hk
    simp only [List.mem_cons, List.not_mem_nil, or_false] at hk
    rcases hk with rfl | rfl
    · exact ⟨5, by simp [Dict.get?]⟩
    · exact ⟨3, by simp [Dict.get?]⟩

end Probayes
