/-
Property C47: adding functions to a functional.
-/
import Verif.Model.Functional
import Mathlib.Data.Finset.Card

namespace Probayes

/-- What identifies a definition: the function and the declared inputs. -/
def Spec.definition (s : FnState) (out : Finset Str) : Option (ℕ × Option (Finset Str)) :=
  match s.funcs.get? out, s.deps.get? out with
  | some f, some i => some (f.id, i)
  | _, _ => none

/-- C47 full claim: an output once defined cannot be defined again, and a refused
addition leaves the functional exactly as before. -/
def C47_claim : Prop :=
  ∀ (s : FnState) (a : FnSpec),
    ((∃ o ∈ s.deps.keys, ¬ Disjoint o a.out) → ∃ e, addFunc s a = (s, some e)) ∧
    (∀ s' e, addFunc s a = (s', some e) → s' = s)

/-- C47: adding a function for exactly the same outputs is refused and changes
nothing. -/
theorem C47_same_outputs_refused (s : FnState) (a : FnSpec) (h : a.out ∈ s.deps.keys) :
    addFunc s a = (s, some .assertion) := by
  unfold addFunc
  rw [if_pos h]

theorem setPartials_spec (inpSet : Finset Str) (deps : Dict (Finset Str) (Option (Finset Str)))
    (fs : Dict (Finset Str) FuncObj) :
    (setPartials inpSet deps fs).1.keys = fs.keys ∧
    (∀ k, ((setPartials inpSet deps fs).1.get? k).map FuncObj.id = (fs.get? k).map FuncObj.id) ∧
    ((setPartials inpSet deps fs).2.2 = none → (setPartials inpSet deps fs).2.1 = fs.keys ∧
      ∀ k f d, fs.get? k = some f → deps.get? k = some (some d) → f.ordered = false →
        ∃ f', (setPartials inpSet deps fs).1.get? k = some f' ∧ f'.ignored = inpSet \ d) ∧
    (inpSet.Nonempty → ∀ k f, fs.get? k = some f → f.ordered = false → deps.get? k = some none →
      (setPartials inpSet deps fs).1.get? k = some f ∧ (setPartials inpSet deps fs).2.2 ≠ none) := by
  induction fs with
  | nil => simp [setPartials, Dict.get?]
  | cons kf fs ih =>
      obtain ⟨k, f⟩ := kf
      obtain ⟨h1, h2, h3, h4⟩ := ih
      -- the loop stops here
      have hstop : ∀ (g : FuncObj) (e : Err), g.id = f.id →
          (inpSet.Nonempty → f.ordered = false → deps.get? k = some none → g = f) →
          (Dict.keys ((k, g) :: fs) = Dict.keys ((k, f) :: fs) ∧
          (∀ k', (Dict.get? ((k, g) :: fs) k').map FuncObj.id =
            (Dict.get? ((k, f) :: fs) k').map FuncObj.id) ∧
          ((some e : Option Err) = none → [k] = Dict.keys ((k, f) :: fs) ∧
            ∀ k' f' d, Dict.get? ((k, f) :: fs) k' = some f' → deps.get? k' = some (some d) →
              f'.ordered = false → ∃ f'', Dict.get? ((k, g) :: fs) k' = some f'' ∧
                f''.ignored = inpSet \ d) ∧
          (inpSet.Nonempty → ∀ k' f', Dict.get? ((k, f) :: fs) k' = some f' → f'.ordered = false →
            deps.get? k' = some none →
            Dict.get? ((k, g) :: fs) k' = some f' ∧ (some e : Option Err) ≠ none)) := by
        intro g e hg hgf
        refine ⟨by simp, ?_, by simp, ?_⟩
        · intro k'
          by_cases hk : k = k' <;> simp [Dict.get?, hk, hg]
        · intro hne k' f' hf' ho hd
          refine ⟨?_, by simp⟩
          by_cases hk : k = k'
          · subst hk
            obtain rfl : f = f' := by simpa [Dict.get?] using hf'
            rw [hgf hne ho hd]; simp [Dict.get?]
          · simpa [Dict.get?, hk] using hf'
      -- the loop goes on
      have hon : ∀ (g : FuncObj), g.id = f.id →
          (inpSet.Nonempty → f.ordered = false → deps.get? k ≠ some none) →
          (∀ d, f.ordered = false → deps.get? k = some (some d) → g.ignored = inpSet \ d) →
          (Dict.keys ((k, g) :: (setPartials inpSet deps fs).1) = Dict.keys ((k, f) :: fs) ∧
          (∀ k', (Dict.get? ((k, g) :: (setPartials inpSet deps fs).1) k').map FuncObj.id =
            (Dict.get? ((k, f) :: fs) k').map FuncObj.id) ∧
          ((setPartials inpSet deps fs).2.2 = none →
            k :: (setPartials inpSet deps fs).2.1 = Dict.keys ((k, f) :: fs) ∧
            ∀ k' f' d, Dict.get? ((k, f) :: fs) k' = some f' → deps.get? k' = some (some d) →
              f'.ordered = false →
              ∃ f'', Dict.get? ((k, g) :: (setPartials inpSet deps fs).1) k' = some f'' ∧
                f''.ignored = inpSet \ d) ∧
          (inpSet.Nonempty → ∀ k' f', Dict.get? ((k, f) :: fs) k' = some f' → f'.ordered = false →
            deps.get? k' = some none →
            Dict.get? ((k, g) :: (setPartials inpSet deps fs).1) k' = some f' ∧
              (setPartials inpSet deps fs).2.2 ≠ none)) := by
        intro g hg hgn hgi
        refine ⟨by simp [h1], ?_, ?_, ?_⟩
        · intro k'
          by_cases hk : k = k'
          · simp [Dict.get?, hk, hg]
          · simp [Dict.get?, hk, h2 k']
        · intro h
          refine ⟨by simp [(h3 h).1], ?_⟩
          intro k' f' d hf' hd ho
          by_cases hk : k = k'
          · subst hk
            obtain rfl : f = f' := by simpa [Dict.get?] using hf'
            exact ⟨g, by simp [Dict.get?], hgi d ho hd⟩
          · obtain ⟨f'', e1, e2⟩ := (h3 h).2 k' f' d (by simpa [Dict.get?, hk] using hf') hd ho
            exact ⟨f'', by simpa [Dict.get?, hk] using e1, e2⟩
        · intro hne k' f' hf' ho hd
          by_cases hk : k = k'
          · subst hk
            obtain rfl : f = f' := by simpa [Dict.get?] using hf'
            exact absurd hd (hgn hne ho)
          · obtain ⟨e1, e2⟩ := h4 hne k' f' (by simpa [Dict.get?, hk] using hf') ho hd
            exact ⟨by simpa [Dict.get?, hk] using e1, e2⟩
      unfold setPartials
      by_cases ho : f.ordered = true
      · simp only [ho, if_true]
        exact hon f rfl (by simp [ho]) (by simp [ho])
      · have ho' : f.ordered = false := by simpa using ho
        simp only [ho]
        rcases hdk : deps.get? k with _ | _ | d
        · exact hstop f .key rfl (fun _ _ _ => rfl)
        · simp only [Bool.false_eq_true, if_false]
          by_cases hne : inpSet.Nonempty
          · simp only [hne, if_true]
            have := hstop f .type rfl (fun _ _ _ => rfl)
            simpa only [hne] using this
          · simp only [hne, if_false]
            by_cases hd : f.hasDelta = true
            · simp only [hd, if_true]
              have := hstop { f with ignored := ∅ } .assertion rfl (fun h => absurd h hne)
              simpa only [hne, hd, ho', false_implies] using this
            · simp only [hd, Bool.false_eq_true, if_false]
              have := hon { f with ignored := ∅ } rfl (fun h => absurd h hne) (by
                intro d _ hdk'; rw [hdk] at hdk'; simp at hdk')
              simpa only [hne, hd, ho', false_implies] using this
        · simp only [Bool.false_eq_true, if_false]
          by_cases hd : f.hasDelta = true
          · simp only [hd, if_true]
            exact hstop _ .assertion rfl (fun _ _ h => by rw [hdk] at h; simp at h)
          · simp only [hd, Bool.false_eq_true, if_false]
            refine hon _ rfl (fun _ _ h => by rw [hdk] at h; simp at h) ?_
            intro d' _ hd'
            rw [hdk] at hd'
            obtain rfl : d = d' := by simpa using hd'
            rfl

/-- The relation between the state before the final checks and the state after. -/
structure Kept (s s' : FnState) (out : Finset Str) : Prop where
  outs : s'.outSet = s.outSet
  inps : s'.inpSet = s.inpSet
  keys : s'.deps.keys = s.deps.keys
  deps : ∀ k, k ≠ out → s'.deps.get? k = s.deps.get? k
  fkeys : s'.funcs.keys = s.funcs.keys
  funcs : ∀ k, (s'.funcs.get? k).map FuncObj.id = (s.funcs.get? k).map FuncObj.id
  ndeps : s'.ndeps = s.ndeps

theorem addFuncEnd_kept (s : FnState) (out inp : Finset Str) :
    Kept s (addFuncEnd s out inp).1 out ∧
    ((addFuncEnd s out inp).2 = none → out ⊆ s.outSet ∧ inp ⊆ s.inpSet ∧
      (addFuncEnd s out inp).1.deps = s.deps ∧
      (addFuncEnd s out inp).1.partials = s.funcs.keys ∧
      ∀ f i, s.funcs.get? out = some f → s.deps.get? out = some (some i) → f.ordered = false →
        ∃ f', (addFuncEnd s out inp).1.funcs.get? out = some f' ∧ f'.ignored = s.inpSet \ i) := by
  unfold addFuncEnd
  split
  · exact ⟨⟨rfl, rfl, rfl, fun _ _ => rfl, rfl, fun _ => rfl, rfl⟩, by simp⟩
  · rename_i h1
    split
    · exact ⟨⟨rfl, rfl, rfl, fun _ _ => rfl, rfl, fun _ => rfl, rfl⟩, by simp⟩
    · rename_i h2
      obtain ⟨a, b, c, -⟩ := setPartials_spec s.inpSet s.deps s.funcs
      refine ⟨⟨rfl, rfl, rfl, fun _ _ => rfl, a, b, rfl⟩, ?_⟩
      intro h
      exact ⟨not_not.mp h1, not_not.mp h2, rfl, (c h).1, fun f i => (c h).2 out f i⟩

theorem addFuncInp_kept (s : FnState) (out : Finset Str) (inp : Option (Finset Str)) (f : FuncObj)
    (hmem : out ∈ s.deps.keys) (hdep : s.deps.get? out = some inp)
    (hfun : s.funcs.get? out = some f) :
    Kept s (addFuncInp s out inp f).1 out ∧
    ((addFuncInp s out inp f).2 = none → ∃ i, out ⊆ s.outSet ∧ i ⊆ s.inpSet ∧
      (∀ j, inp = some j → i = j) ∧ (inp = none → i = f.symbols ∧ s.isiconic = some true) ∧
      (addFuncInp s out inp f).1.deps.get? out = some (some i) ∧
      (addFuncInp s out inp f).1.partials = s.funcs.keys ∧
      (f.ordered = false → ∃ f', (addFuncInp s out inp f).1.funcs.get? out = some f' ∧
        f'.ignored = s.inpSet \ i)) := by
  cases inp with
  | some i =>
      obtain ⟨h1, h2⟩ := addFuncEnd_kept s out i
      refine ⟨h1, ?_⟩
      intro h
      obtain ⟨a, b, c, d, e⟩ := h2 h
      refine ⟨i, a, b, by simp, by simp, ?_, d, e f i hfun hdep⟩
      show (addFuncEnd s out i).1.deps.get? out = _
      rw [c, hdep]
  | none =>
      unfold addFuncInp
      simp only
      split
      · exact ⟨⟨rfl, rfl, rfl, fun _ _ => rfl, rfl, fun _ => rfl, rfl⟩, by simp⟩
      · rename_i hic
        obtain ⟨h1, h2⟩ := addFuncEnd_kept
          { s with deps := s.deps.set out (some f.symbols) } out f.symbols
        refine ⟨⟨h1.outs, h1.inps, ?_, ?_, h1.fkeys, h1.funcs, h1.ndeps⟩, ?_⟩
        · rw [h1.keys]; simp only; rw [Dict.keys_set, if_pos hmem]
        · intro k hk
          rw [h1.deps k hk]; simp only
          rw [Dict.get?_set, if_neg (Ne.symm hk)]
        · intro h
          obtain ⟨a, b, c, d, e⟩ := h2 h
          have hd : (s.deps.set out (some f.symbols)).get? out = some (some f.symbols) := by
            rw [Dict.get?_set, if_pos rfl]
          refine ⟨f.symbols, a, b, by simp, fun _ => ⟨rfl, not_not.mp hic⟩, ?_, d,
            e f f.symbols hfun hd⟩
          rw [c]; exact hd

theorem addFuncIconic_kept (s : FnState) (a : FnSpec) (f : FuncObj)
    (hmem : a.out ∈ s.deps.keys) (hdep : s.deps.get? a.out = some a.inp)
    (hfun : s.funcs.get? a.out = some f) :
    Kept s (addFuncIconic s a f).1 a.out ∧
    ((addFuncIconic s a f).2 = none → ∃ i, a.out ⊆ s.outSet ∧ i ⊆ s.inpSet ∧
      (∀ j, a.inp = some j → i = j) ∧ (a.inp = none → i = f.symbols ∧ s.isiconic = some true) ∧
      (addFuncIconic s a f).1.deps.get? a.out = some (some i) ∧
      (addFuncIconic s a f).1.partials = s.funcs.keys ∧
      (f.ordered = false → ∃ f', (addFuncIconic s a f).1.funcs.get? a.out = some f' ∧
        f'.ignored = s.inpSet \ i)) := by
  have hrefl : Kept s s a.out := ⟨rfl, rfl, rfl, fun _ _ => rfl, rfl, fun _ => rfl, rfl⟩
  unfold addFuncIconic
  split
  · split
    · exact ⟨hrefl, by simp⟩
    · split
      · exact ⟨hrefl, by simp⟩
      · split
        · rename_i k _
          split
          · exact ⟨hrefl, by simp⟩
          · obtain ⟨h1, h2⟩ := addFuncInp_kept { s with dexpr := s.dexpr.set k f.id } a.out a.inp f
              hmem hdep hfun
            exact ⟨⟨h1.outs, h1.inps, h1.keys, h1.deps, h1.fkeys, h1.funcs, h1.ndeps⟩, h2⟩
        · exact ⟨hrefl, by simp⟩
  · exact addFuncInp_kept s a.out a.inp f hmem hdep hfun

/-- The state handed to the checks. -/
abbrev addedState (s : FnState) (a : FnSpec) (f : FuncObj) (b : Option Bool) : FnState :=
  ⟨s.outSet, s.inpSet, s.deps.set a.out a.inp, s.deps.length + 1, s.funcs.set a.out f, b, s.dexpr,
    s.partials⟩

/-- The cases of `addFunc` for new outputs. -/
theorem addFunc_cases (s : FnState) (a : FnSpec) (h : a.out ∉ s.deps.keys) :
    (∃ e, a.expr = .error e ∧ addFunc s a =
      ({ s with deps := s.deps.set a.out a.inp, ndeps := s.deps.length + 1 }, some e)) ∨
    ∃ f b, a.expr = .ok f ∧
      ((addFunc s a = (addedState s a f s.isiconic, some .assertion)) ∨
       b = some f.isiconic ∧ addFunc s a = addFuncIconic (addedState s a f b) a f) := by
  have hlen : (s.deps.set a.out a.inp).length = s.deps.length + 1 := by
    rw [Dict.set_of_notMem h]; simp
  unfold addFunc
  rw [if_neg h]
  rcases he : a.expr with e | f
  · left; exact ⟨e, rfl, by simp [hlen]⟩
  · right
    rcases hi : s.isiconic with _ | b
    · refine ⟨f, some f.isiconic, rfl, Or.inr ⟨rfl, ?_⟩⟩
      simp only [hlen]
    · by_cases hb : b ≠ f.isiconic
      · refine ⟨f, some b, rfl, Or.inl ?_⟩
        simp only [hlen, if_pos hb, hi]
      · refine ⟨f, some b, rfl, Or.inr ⟨by rw [not_not.mp hb], ?_⟩⟩
        simp only [hlen, if_neg hb, hi]

/-- C47: whether it succeeds or raises, an addition never changes an existing
definition. -/
theorem C47_existing_kept (s : FnState) (a : FnSpec) (k : Finset Str) (hk : k ∈ s.deps.keys) :
    Spec.definition (addFunc s a).1 k = Spec.definition s k := by
  by_cases h : a.out ∈ s.deps.keys
  · rw [C47_same_outputs_refused s a h]
  · have hne : k ≠ a.out := by rintro rfl; exact h hk
    have hsame : ∀ (d : Dict (Finset Str) (Option (Finset Str))) (i : Option (Finset Str)),
        (d.set a.out i).get? k = d.get? k := by
      intro d i; rw [Dict.get?_set, if_neg (Ne.symm hne)]
    have hsamef : ∀ f : FuncObj, (s.funcs.set a.out f).get? k = s.funcs.get? k := by
      intro f; rw [Dict.get?_set, if_neg (Ne.symm hne)]
    have hfin : ∀ s' : FnState, s'.deps.get? k = s.deps.get? k →
        (s'.funcs.get? k).map FuncObj.id = (s.funcs.get? k).map FuncObj.id →
        Spec.definition s' k = Spec.definition s k := by
      intro s' h1 h2
      unfold Spec.definition
      rw [h1]
      rcases ha : s'.funcs.get? k with _ | f <;> rcases hb : s.funcs.get? k with _ | g <;>
        simp only [ha, hb, Option.map_none, Option.map_some, reduceCtorEq, Option.some.injEq] at h2
      · rfl
      · rcases s.deps.get? k with _ | i <;> simp [h2]
    rcases addFunc_cases s a h with ⟨e, _, he⟩ | ⟨f, b, _, he | ⟨hb, he⟩⟩
    · rw [he]; exact hfin _ (hsame _ _) rfl
    · rw [he]; exact hfin _ (hsame _ _) (by simp only; rw [hsamef])
    · rw [he]
      obtain ⟨h1, _⟩ := addFuncIconic_kept (addedState s a f b) a f
        (by simp only; rw [Dict.keys_set, if_neg h]; simp)
        (by simp only; rw [Dict.get?_set, if_pos rfl]) (by simp only; rw [Dict.get?_set, if_pos rfl])
      refine hfin _ ?_ ?_
      · rw [h1.deps k hne]; exact hsame _ _
      · rw [h1.funcs k]; simp only; rw [hsamef]

/-- C47: an addition that succeeds adds exactly one definition, at the end, for
known outputs and inputs, and makes every function callable.  A function without
inputs given is symbolic and depends on its symbols; one without an order of its own
discards the inputs it does not depend on. -/
theorem C47_success (s : FnState) (a : FnSpec) (s' : FnState) (h : addFunc s a = (s', none))
    (hf : s.funcs.keys = s.deps.keys) :
    a.out ∉ s.deps.keys ∧ s'.deps.keys = s.deps.keys ++ [a.out] ∧ s'.ndeps = s.deps.length + 1 ∧
    s'.partials = s.deps.keys ++ [a.out] ∧
    ∃ f i, a.expr = .ok f ∧ Spec.definition s' a.out = some (f.id, some i) ∧
      a.out ⊆ s.outSet ∧ i ⊆ s.inpSet ∧ (∀ j, a.inp = some j → i = j) ∧
      (a.inp = none → i = f.symbols ∧ f.isiconic = true) ∧
      (f.ordered = false → ∃ f', s'.funcs.get? a.out = some f' ∧ f'.ignored = s.inpSet \ i) := by
  have hn : a.out ∉ s.deps.keys := by
    intro hc
    rw [C47_same_outputs_refused s a hc] at h
    simp at h
  have hfk : a.out ∉ s.funcs.keys := by rw [hf]; exact hn
  rcases addFunc_cases s a hn with ⟨e, _, he⟩ | ⟨f, b, hfx, he | ⟨hb, he⟩⟩
  · rw [he] at h; simp at h
  · rw [he] at h; simp at h
  · obtain ⟨h1, h2⟩ := addFuncIconic_kept (addedState s a f b) a f
        (by simp only; rw [Dict.keys_set, if_neg hn]; simp)
        (by simp only; rw [Dict.get?_set, if_pos rfl]) (by simp only; rw [Dict.get?_set, if_pos rfl])
    rw [he] at h
    rw [h] at h1 h2
    obtain ⟨i, ho, hi, hj, hs, hd, hp, hg⟩ := h2 rfl
    refine ⟨hn, ?_, h1.ndeps, ?_, f, i, hfx, ?_, ho, hi, hj, fun hin => ⟨(hs hin).1, ?_⟩, hg⟩
    · rw [h1.keys]; simp only; rw [Dict.keys_set, if_neg hn]
    · rw [hp]; simp only; rw [Dict.keys_set, if_neg hfk, hf]
    · have := h1.funcs a.out
      simp only at this
      rw [Dict.get?_set, if_pos rfl] at this
      simp only [Option.map_some, Option.map_eq_some_iff] at this
      obtain ⟨g, hg1, hg2⟩ := this
      simp only [Spec.definition, hg1, hd, hg2]
    · have := (hs hin).2
      rw [hb] at this
      simpa using this

/-- C47: after any sequence of successful additions the definitions are exactly
those added, in order. -/
theorem C47_sequence (as : List FnSpec) : ∀ (s : FnState),
    s.funcs.keys = s.deps.keys →
    (∀ (pre : List FnSpec) (a : FnSpec), pre ++ [a] <+: as →
      (addFunc (pre.foldl (fun s a => (addFunc s a).1) s) a).2 = none) →
    (as.foldl (fun s a => (addFunc s a).1) s).deps.keys = s.deps.keys ++ as.map FnSpec.out := by
  induction as with
  | nil => intro s _ _; simp
  | cons a as ih =>
      intro s hs hok
      have h0 := hok [] a ⟨as, rfl⟩
      simp only [List.foldl_nil] at h0
      obtain ⟨s', hs'⟩ : ∃ s', addFunc s a = (s', none) := ⟨(addFunc s a).1, by rw [← h0]⟩
      obtain ⟨hn, hk, _, _, f, i, hfx, _⟩ := C47_success s a s' hs' hs
      have hfk : s'.funcs.keys = s'.deps.keys := by
        rcases addFunc_cases s a hn with ⟨e, _, he⟩ | ⟨f, b, _, he | ⟨hb, he⟩⟩
        · rw [he] at hs'; simp at hs'
        · rw [he] at hs'; simp at hs'
        · obtain ⟨h1, _⟩ := addFuncIconic_kept (addedState s a f b) a f
            (by simp only; rw [Dict.keys_set, if_neg hn]; simp)
            (by simp only; rw [Dict.get?_set, if_pos rfl])
            (by simp only; rw [Dict.get?_set, if_pos rfl])
          rw [he] at hs'
          rw [hs'] at h1
          rw [h1.fkeys, h1.keys]
          simp only
          rw [Dict.keys_set, Dict.keys_set, if_neg hn, if_neg (by rw [hs]; exact hn), hs]
      rw [List.foldl_cons, hs', ih s' hfk ?_, hk]
      · simp
      · intro pre b hpre
        have := hok (a :: pre) b (by
          obtain ⟨t, ht⟩ := hpre
          exact ⟨t, by simp [← ht]⟩)
        simpa [hs'] using this

private abbrev fPlain : FuncObj := ⟨0, false, ∅, false, false, ∅⟩

/-- C47 fails: an addition refused for an unknown input stays registered. -/
theorem C47_claim_fails : ¬ C47_claim := by
  intro h
  obtain ⟨_, h2⟩ := h (FnState.init {['y']} {['x']})
    ⟨{['y']}, some {['q']}, .ok fPlain, false⟩
  have hq : ¬ ({['q']} : Finset Str) ⊆ {['x']} := by decide
  have := h2 _ .assertion (by
    simp only [addFunc, FnState.init, Dict.keys_nil, List.not_mem_nil, if_false, addFuncIconic,
      addFuncInp, addFuncEnd]
    simp [hq]
    rfl)
  have := congrArg FnState.ndeps this
  simp [FnState.init, Dict.set] at this

/-- C47 also fails for overlapping outputs: after `{x,y}` has been defined, `x` can
be defined again. -/
theorem C47_overlap_fails : ∃ s a, s.funcs.keys = s.deps.keys ∧
    (∃ o ∈ s.deps.keys, ¬ Disjoint o a.out) ∧ (addFunc s a).2 = none := by
  refine ⟨⟨{['x'], ['y']}, {['u']}, [({['x'], ['y']}, some {['u']})], 1,
    [({['x'], ['y']}, ⟨0, false, ∅, false, true, ∅⟩)], some false, [], [{['x'], ['y']}]⟩,
    ⟨{['x']}, some {['u']}, .ok ⟨1, false, ∅, false, true, ∅⟩, false⟩, rfl,
    ⟨_, List.mem_singleton.mpr rfl, by decide⟩, ?_⟩
  have h1 : ({['x']} : Finset Str) ∉ Dict.keys [(({['x'], ['y']} : Finset Str), some ({['u']} : Finset Str))] := by
    decide
  have h2 : ({['x']} : Finset Str) ⊆ {['x'], ['y']} := by decide
  have h3 : ({['x'], ['y']} : Finset Str) ≠ {['x']} := by decide
  have h4 : ({['x']} : Finset Str) ≠ {['x'], ['y']} := by decide
  simp [addFunc, h1, addFuncIconic, addFuncInp, addFuncEnd, setPartials, Dict.set, h2, h3, h4]

/-- A function with a delta mapping is always refused, after being registered. -/
theorem C47_delta_half_added (s : FnState) (a : FnSpec) (f : FuncObj) (i : Finset Str)
    (hn : a.out ∉ s.deps.keys) (hf : a.expr = .ok f) (hi : a.inp = some i)
    (hd : f.hasDelta = true) (ho : f.ordered = false) (hic : s.isiconic = some false)
    (hfi : f.isiconic = false) (hout : a.out ⊆ s.outSet) (hinp : i ⊆ s.inpSet)
    (hempty : s.funcs = []) :
    ∃ s', addFunc s a = (s', some .assertion) ∧ a.out ∈ s'.deps.keys := by
  have hg : (s.deps.set a.out (some i)).get? a.out = some (some i) := by
    rw [Dict.get?_set, if_pos rfl]
  rcases hs : addFunc s a with ⟨s', e⟩
  refine ⟨s', ?_, ?_⟩
  · simp [addFunc, hn, hf, hic, hfi, addFuncIconic, hi, addFuncInp, addFuncEnd, hout, hinp, hempty,
      Dict.set, setPartials, ho, hd, hg] at hs
    simp [← hs.2]
  · simp [addFunc, hn, hf, hic, hfi, addFuncIconic, hi, addFuncInp, addFuncEnd, hout, hinp, hempty,
      Dict.set, setPartials, ho, hd, hg] at hs
    rw [← hs.1]
    simp only
    rw [Dict.keys_set, if_neg hn]; simp

/-- Non-vacuity of `C47_success`. -/
example : ∃ s', addFunc (FnState.init {['y']} {['x']})
    ⟨{['y']}, some {['x']}, .ok fPlain, false⟩ = (s', none) := by
  refine ⟨_, Prod.ext rfl ?_⟩
  simp [addFunc, FnState.init, addFuncIconic, addFuncInp, addFuncEnd, setPartials, Dict.set,
    Dict.get?]

/-- C47: after a successful addition exactly the functions defined can be called,
the new one with the function given. -/
theorem C47_callable (s : FnState) (a : FnSpec) (s' : FnState) (h : addFunc s a = (s', none))
    (hf : s.funcs.keys = s.deps.keys) :
    (∀ k, (∃ g, fnGet s' k = .ok g) ↔ k ∈ s.deps.keys ∨ k = a.out) ∧
    ∃ f g, a.expr = .ok f ∧ fnGet s' a.out = .ok g ∧ g.id = f.id := by
  obtain ⟨hn, hk, -, hp, f, i, hfx, hd, -⟩ := C47_success s a s' h hf
  have hfk : s'.funcs.keys = s.deps.keys ++ [a.out] := by
    rcases addFunc_cases s a hn with ⟨e, _, he⟩ | ⟨f, b, _, he | ⟨hb, he⟩⟩
    · rw [he] at h; simp at h
    · rw [he] at h; simp at h
    · obtain ⟨h1, _⟩ := addFuncIconic_kept (addedState s a f b) a f
        (by simp only; rw [Dict.keys_set, if_neg hn]; simp)
        (by simp only; rw [Dict.get?_set, if_pos rfl]) (by simp only; rw [Dict.get?_set, if_pos rfl])
      rw [he] at h
      rw [h] at h1
      rw [h1.fkeys]
      simp only
      rw [Dict.keys_set, if_neg (by rw [hf]; exact hn), hf]
  constructor
  · intro k
    unfold fnGet
    rw [hp]
    constructor
    · rintro ⟨g, hg⟩
      split at hg
      · rename_i hm; simpa using hm
      · simp at hg
    · intro hm
      have hm' : k ∈ s.deps.keys ++ [a.out] := by simpa using hm
      rw [if_pos hm']
      obtain ⟨g, hg⟩ := Option.isSome_iff_exists.mp
        (Dict.get?_isSome.mpr (by rw [hfk]; exact hm' : k ∈ s'.funcs.keys))
      exact ⟨g, by rw [hg]⟩
  · unfold Spec.definition at hd
    rcases hg : s'.funcs.get? a.out with _ | g
    · simp [hg] at hd
    · refine ⟨f, g, hfx, ?_, ?_⟩
      · unfold fnGet
        rw [hp, if_pos (by simp), hg]
      · rw [hg] at hd
        rcases hdd : s'.deps.get? a.out with _ | i'
        · simp [hdd] at hd
        · simp only [hdd, Option.some.injEq, Prod.mk.injEq] at hd
          exact hd.1

/-- C47: a function refused for unknown outputs, unknown inputs or because its
expression cannot be built cannot be called (although it stays registered). -/
theorem C47_refused_not_callable (s : FnState) (a : FnSpec) (hn : a.out ∉ s.deps.keys)
    (hp : a.out ∉ s.partials)
    (hbad : (∃ e, a.expr = .error e) ∨ ¬ a.out ⊆ s.outSet ∨ ∃ i, a.inp = some i ∧ ¬ i ⊆ s.inpSet) :
    (∃ e, (addFunc s a).2 = some e) ∧ fnGet (addFunc s a).1 a.out = .error .key ∧
      a.out ∈ (addFunc s a).1.deps.keys := by
  have hkey : ∀ d : Dict (Finset Str) (Option (Finset Str)), ∀ x, a.out ∈ (d.set a.out x).keys := by
    intro d x
    rw [Dict.keys_set]
    split
    · assumption
    · simp
  have hend : ∀ t : FnState, ∀ i, a.out ∈ t.deps.keys → t.partials = s.partials → t.outSet = s.outSet →
      t.inpSet = s.inpSet → (¬ a.out ⊆ s.outSet ∨ ¬ i ⊆ s.inpSet) →
      (∃ e, (addFuncEnd t a.out i).2 = some e) ∧ fnGet (addFuncEnd t a.out i).1 a.out = .error .key ∧
        a.out ∈ (addFuncEnd t a.out i).1.deps.keys := by
    intro t i h1 h2 h3 h4 hb
    have hget : fnGet t a.out = .error .key := by
      unfold fnGet; rw [h2, if_neg hp]
    unfold addFuncEnd
    rw [h3, h4]
    by_cases ho : a.out ⊆ s.outSet
    · rw [if_neg (not_not.mpr ho), if_pos (hb.resolve_left (not_not.mpr ho))]
      exact ⟨⟨_, rfl⟩, hget, h1⟩
    · rw [if_pos ho]
      exact ⟨⟨_, rfl⟩, hget, h1⟩
  have hinp : ∀ (t : FnState) (f : FuncObj), a.out ∈ t.deps.keys → t.partials = s.partials →
      t.outSet = s.outSet → t.inpSet = s.inpSet →
      (¬ a.out ⊆ s.outSet ∨ ∃ i, a.inp = some i ∧ ¬ i ⊆ s.inpSet) →
      (∃ e, (addFuncInp t a.out a.inp f).2 = some e) ∧
        fnGet (addFuncInp t a.out a.inp f).1 a.out = .error .key ∧
        a.out ∈ (addFuncInp t a.out a.inp f).1.deps.keys := by
    intro t f h1 h2 h3 h4 hb
    rcases hi : a.inp with _ | i
    · simp only [addFuncInp]
      split
      · exact ⟨⟨_, rfl⟩, by unfold fnGet; rw [h2, if_neg hp], h1⟩
      · exact hend _ _ (hkey _ _) h2 h3 h4 (Or.inl (by
          rcases hb with hb | ⟨i, hi', -⟩
          · exact hb
          · rw [hi] at hi'; simp at hi'))
    · refine hend t i h1 h2 h3 h4 ?_
      rcases hb with hb | ⟨i', hi', hb⟩
      · exact Or.inl hb
      · rw [hi] at hi'
        obtain rfl : i = i' := by simpa using hi'
        exact Or.inr hb
  rcases addFunc_cases s a hn with ⟨e, hex, he⟩ | ⟨f, b, hfx, he | ⟨hb, he⟩⟩
  · rw [he]
    exact ⟨⟨e, rfl⟩, by unfold fnGet; rw [if_neg hp], hkey _ _⟩
  · rw [he]
    exact ⟨⟨_, rfl⟩, by unfold fnGet; rw [if_neg hp], hkey _ _⟩
  · have hbad' : ¬ a.out ⊆ s.outSet ∨ ∃ i, a.inp = some i ∧ ¬ i ⊆ s.inpSet := by
      rcases hbad with ⟨e, h⟩ | h
      · rw [hfx] at h; simp at h
      · exact h
    have hself : (∃ e, (some Err.assertion : Option Err) = some e) ∧
        fnGet (addedState s a f b) a.out = .error .key ∧
        a.out ∈ (addedState s a f b).deps.keys :=
      ⟨⟨_, rfl⟩, by unfold fnGet; rw [if_neg hp], hkey _ _⟩
    rw [he]
    unfold addFuncIconic
    split
    · split
      · exact hself
      · split
        · exact hself
        · split
          · split
            · exact hself
            · exact hinp _ f (hkey _ _) rfl rfl rfl hbad'
          · exact hself
    · exact hinp _ f (hkey _ _) rfl rfl rfl hbad'

/-- A functional that holds a plain function whose inputs were not given. -/
def Spec.Poisoned (s : FnState) : Prop :=
  s.inpSet.Nonempty ∧ ∃ k f, s.deps.get? k = some none ∧ s.funcs.get? k = some f ∧ f.ordered = false

theorem poisoned_step (s : FnState) (a : FnSpec) (h : Spec.Poisoned s) :
    (∃ e, (addFunc s a).2 = some e) ∧ Spec.Poisoned (addFunc s a).1 := by
  obtain ⟨hne, k, f, hk, hkf, hko⟩ := h
  by_cases hin : a.out ∈ s.deps.keys
  · rw [C47_same_outputs_refused s a hin]
    exact ⟨⟨_, rfl⟩, hne, k, f, hk, hkf, hko⟩
  have hka : k ≠ a.out := by
    rintro rfl
    exact hin (Dict.get?_isSome.mp (by rw [hk]; rfl))
  have hd : ∀ x, (s.deps.set a.out x).get? k = some none := fun x => by
    rw [Dict.get?_set, if_neg (Ne.symm hka), hk]
  have hfn : ∀ g, (s.funcs.set a.out g).get? k = some f := fun g => by
    rw [Dict.get?_set, if_neg (Ne.symm hka), hkf]
  have hend : ∀ t : FnState, ∀ i, t.inpSet = s.inpSet → t.deps.get? k = some none →
      t.funcs.get? k = some f →
      (∃ e, (addFuncEnd t a.out i).2 = some e) ∧ Spec.Poisoned (addFuncEnd t a.out i).1 := by
    intro t i h1 h2 h3
    have hp : Spec.Poisoned t := ⟨by rw [h1]; exact hne, k, f, h2, h3, hko⟩
    unfold addFuncEnd
    split
    · exact ⟨⟨_, rfl⟩, hp⟩
    · split
      · exact ⟨⟨_, rfl⟩, hp⟩
      · obtain ⟨-, -, -, c⟩ := setPartials_spec t.inpSet t.deps t.funcs
        obtain ⟨c1, c2⟩ := c (by rw [h1]; exact hne) k f h3 hko h2
        exact ⟨Option.ne_none_iff_exists'.mp c2, by rw [h1]; exact hne, k, f, h2, c1, hko⟩
  have hinp : ∀ (t : FnState) (g : FuncObj), t.inpSet = s.inpSet → t.deps.get? k = some none →
      t.funcs.get? k = some f →
      (∃ e, (addFuncInp t a.out a.inp g).2 = some e) ∧ Spec.Poisoned (addFuncInp t a.out a.inp g).1 := by
    intro t g h1 h2 h3
    rcases hi : a.inp with _ | i
    · simp only [addFuncInp]
      split
      · exact ⟨⟨_, rfl⟩, by rw [h1]; exact hne, k, f, h2, h3, hko⟩
      · refine hend _ _ h1 ?_ h3
        simp only
        rw [Dict.get?_set, if_neg (Ne.symm hka), h2]
    · exact hend t i h1 h2 h3
  rcases addFunc_cases s a hin with ⟨e, hex, he⟩ | ⟨g, b, hfx, he | ⟨hb, he⟩⟩
  · rw [he]
    exact ⟨⟨e, rfl⟩, hne, k, f, hd _, hkf, hko⟩
  · rw [he]
    exact ⟨⟨_, rfl⟩, hne, k, f, hd _, hfn _, hko⟩
  · have hself : (∃ e, (some Err.assertion : Option Err) = some e) ∧
        Spec.Poisoned (addedState s a g b) :=
      ⟨⟨_, rfl⟩, hne, k, f, hd _, hfn _, hko⟩
    rw [he]
    unfold addFuncIconic
    split
    · split
      · exact hself
      · split
        · exact hself
        · split
          · split
            · exact hself
            · exact hinp _ g rfl (hd _) (hfn _)
          · exact hself
    · exact hinp _ g rfl (hd _) (hfn _)

/-- C47: once a plain function has been refused for want of inputs, no function can
ever be added to the functional again: every later addition raises, whatever it
is. -/
theorem C47_poisoned (s : FnState) (a : FnSpec) (f : FuncObj) (hn : a.out ∉ s.deps.keys)
    (hf : a.expr = .ok f) (hi : a.inp = none) (hp : f.isiconic = false) (ho : f.ordered = false)
    (hic : s.isiconic ≠ some true) (hne : s.inpSet.Nonempty) :
    (addFunc s a).2 = some .assertion ∧
    ∀ (as : List FnSpec) (b : FnSpec),
      ∃ e, (addFunc (as.foldl (fun s a => (addFunc s a).1) (addFunc s a).1) b).2 = some e := by
  have hd : (s.deps.set a.out none).get? a.out = some none := by rw [Dict.get?_set, if_pos rfl]
  have hfn : (s.funcs.set a.out f).get? a.out = some f := by rw [Dict.get?_set, if_pos rfl]
  have hfirst : (addFunc s a).2 = some .assertion ∧ Spec.Poisoned (addFunc s a).1 := by
    rcases hs : s.isiconic with _ | b
    · simp [addFunc, hn, hf, hi, hs, hp, addFuncIconic, addFuncInp]
      exact ⟨hne, a.out, f, hd, hfn, ho⟩
    · have hb : b = false := by
        cases b
        · rfl
        · exact absurd hs hic
      subst hb
      simp [addFunc, hn, hf, hi, hs, hp, addFuncIconic, addFuncInp]
      exact ⟨hne, a.out, f, hd, hfn, ho⟩
  refine ⟨hfirst.1, fun as b => ?_⟩
  have hall : ∀ (as : List FnSpec) (t : FnState), Spec.Poisoned t →
      Spec.Poisoned (as.foldl (fun s a => (addFunc s a).1) t) := by
    intro as
    induction as with
    | nil => intro t h; exact h
    | cons c as ih => intro t h; exact ih _ (poisoned_step t c h).2
  exact (poisoned_step _ b (hall as _ hfirst.2)).1

/-- Non-vacuity of `C47_poisoned` and of `C47_refused_not_callable`. -/
example : (∃ (s : FnState) (a : FnSpec) (f : FuncObj), a.out ∉ s.deps.keys ∧ a.expr = .ok f ∧ a.inp = none ∧
    f.isiconic = false ∧ f.ordered = false ∧ s.isiconic ≠ some true ∧ s.inpSet.Nonempty) ∧
    ∃ (s : FnState) (a : FnSpec), a.out ∉ s.deps.keys ∧ a.out ∉ s.partials ∧ ∃ i, a.inp = some i ∧ ¬ i ⊆ s.inpSet :=
  ⟨⟨FnState.init {['y']} {['x']}, ⟨{['y']}, none, .ok fPlain, false⟩, fPlain, by simp [FnState.init],
    rfl, rfl, rfl, rfl, by simp [FnState.init], by simp [FnState.init]⟩,
   ⟨FnState.init {['y']} {['x']}, ⟨{['y']}, some {['q']}, .ok fPlain, false⟩, by simp [FnState.init],
    by simp [FnState.init], _, rfl, by decide⟩⟩

end Probayes
