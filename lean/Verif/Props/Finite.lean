/-
C118: whether values are finite.
-/
import Verif.Model.Finite
import Mathlib.Data.List.Forall2

namespace Probayes

/-! ### Specification -/

/-- The value has no infinite number, or what is not a number, anywhere within. -/
inductive Spec.AllFinite : FinArg → Prop
  | num : Spec.AllFinite (.num .finite)
  | arr {xs} : (∀ x ∈ xs, x = .finite) → Spec.AllFinite (.arr xs)
  | tuple {vs} : (∀ v ∈ vs, Spec.AllFinite v) → Spec.AllFinite (.tuple vs)
  | list {vs} : (∀ v ∈ vs, Spec.AllFinite v) → Spec.AllFinite (.list vs)
  | sym : Spec.AllFinite (.sym .finite)
  | set {xs} : (∀ x ∈ xs, x = .finite) → Spec.AllFinite (.set xs)

/-- All flags within are true. -/
inductive Spec.AllTrue : FinRes → Prop
  | flag : Spec.AllTrue (.flag true)
  | flags {bs} : (∀ b ∈ bs, b = true) → Spec.AllTrue (.flags bs)
  | tuple {rs} : (∀ r ∈ rs, Spec.AllTrue r) → Spec.AllTrue (.tuple rs)
  | list {rs} : (∀ r ∈ rs, Spec.AllTrue r) → Spec.AllTrue (.list rs)

/-- There is a text somewhere within the tuples and lists. -/
inductive Spec.HasText : FinArg → Prop
  | text : Spec.HasText .text
  | tuple {vs v} : v ∈ vs → Spec.HasText v → Spec.HasText (.tuple vs)
  | list {vs v} : v ∈ vs → Spec.HasText v → Spec.HasText (.list vs)

/-- No set, and no number of Sympy besides the infinities of the real line, that is not finite, anywhere within. -/
inductive Spec.NoneHidden : FinArg → Prop
  | num {x} : Spec.NoneHidden (.num x)
  | text : Spec.NoneHidden .text
  | arr {xs} : Spec.NoneHidden (.arr xs)
  | oo : Spec.NoneHidden .oo
  | tuple {vs} : (∀ v ∈ vs, Spec.NoneHidden v) → Spec.NoneHidden (.tuple vs)
  | list {vs} : (∀ v ∈ vs, Spec.NoneHidden v) → Spec.NoneHidden (.list vs)
  | sym : Spec.NoneHidden (.sym .finite)
  | set {xs} : (∀ x ∈ xs, x = .finite) → Spec.NoneHidden (.set xs)

/-! ### Helpers -/

theorem isfinite_num (x : FinNum) : x.isfinite = true ↔ x = .finite := by cases x <;> simp [FinNum.isfinite]

theorem each_ok {vs : List FinArg} {rs : List FinRes} (h : isfiniteEach vs = .ok rs) :
    List.Forall₂ (fun v r => isfiniteVar v = .ok r) vs rs := by
  induction vs generalizing rs with
  | nil =>
    rw [isfiniteEach] at h
    cases h
    exact .nil
  | cons v vs ih =>
    rw [isfiniteEach] at h
    split at h
    · cases h
    · next r hr =>
      split at h
      · cases h
      · next rs' hrs =>
        cases h
        exact .cons hr (ih hrs)

theorem each_of {vs : List FinArg} {rs : List FinRes} (h : List.Forall₂ (fun v r => isfiniteVar v = .ok r) vs rs) :
    isfiniteEach vs = .ok rs := by
  induction h with
  | nil => rw [isfiniteEach]
  | cons h1 _ ih => rw [isfiniteEach, h1]; simp only [ih]

theorem each_error {vs : List FinArg} {e : Err} (h : isfiniteEach vs = .error e) : ∃ v ∈ vs, isfiniteVar v = .error e := by
  induction vs with
  | nil => rw [isfiniteEach] at h; cases h
  | cons v vs ih =>
    rw [isfiniteEach] at h
    split at h
    · next e' he =>
      cases h
      exact ⟨v, List.mem_cons_self, he⟩
    · split at h
      · next e' he =>
        cases h
        obtain ⟨v', hv, h'⟩ := ih he
        exact ⟨v', List.mem_cons_of_mem _ hv, h'⟩
      · cases h

theorem forall₂_all {vs : List FinArg} {rs : List FinRes} {p : FinArg → Prop} {q : FinRes → Prop}
    {R : FinArg → FinRes → Prop} (h : List.Forall₂ R vs rs) (hpq : ∀ v ∈ vs, ∀ r, R v r → (q r ↔ p v)) :
    (∀ r ∈ rs, q r) ↔ ∀ v ∈ vs, p v := by
  induction h with
  | nil => simp
  | cons h1 _ ih =>
    simp only [List.mem_cons, forall_eq_or_imp]
    rw [hpq _ List.mem_cons_self _ h1, ih fun v hv => hpq v (List.mem_cons_of_mem _ hv)]

/-! ### Properties -/

/-- C118: tuples and lists are followed member by member, and keep their kind. -/
theorem C118_members (vs : List FinArg) (r : FinRes) :
    (isfiniteVar (.tuple vs) = .ok r ↔ ∃ rs, r = .tuple rs ∧ List.Forall₂ (fun v r => isfiniteVar v = .ok r) vs rs) ∧
    (isfiniteVar (.list vs) = .ok r ↔ ∃ rs, r = .list rs ∧ List.Forall₂ (fun v r => isfiniteVar v = .ok r) vs rs) := by
  constructor <;> constructor
  · intro h
    rw [isfiniteVar] at h
    split at h
    · next rs hrs => cases h; exact ⟨rs, rfl, each_ok hrs⟩
    · cases h
  · rintro ⟨rs, rfl, h⟩
    rw [isfiniteVar, each_of h]
  · intro h
    rw [isfiniteVar] at h
    split at h
    · next rs hrs => cases h; exact ⟨rs, rfl, each_ok hrs⟩
    · cases h
  · rintro ⟨rs, rfl, h⟩
    rw [isfiniteVar, each_of h]

/-- C118: entries of arrays are told one by one. -/
theorem C118_arrays (xs : List FinNum) : ∃ bs : List Bool, isfiniteVar (.arr xs) = .ok (.flags bs) ∧
    List.Forall₂ (fun x b => b = true ↔ x = .finite) xs bs := by
  refine ⟨xs.map FinNum.isfinite, by rw [isfiniteVar], ?_⟩
  induction xs with
  | nil => exact .nil
  | cons x xs ih => exact .cons (isfinite_num x) ih

theorem each_left {vs : List FinArg} {rs : List FinRes} {R : FinArg → FinRes → Prop} (h : List.Forall₂ R vs rs) {v : FinArg}
    (hv : v ∈ vs) : ∃ r ∈ rs, R v r := by
  induction h with
  | nil => cases hv
  | cons h1 _ ih =>
    rcases List.mem_cons.1 hv with rfl | hv
    · exact ⟨_, List.mem_cons_self, h1⟩
    · obtain ⟨r, hr, h⟩ := ih hv
      exact ⟨r, List.mem_cons_of_mem _ hr, h⟩

theorem text_raises {v : FinArg} (h : Spec.HasText v) : ∃ e, isfiniteVar v = .error e := by
  induction h with
  | text => exact ⟨_, by rw [isfiniteVar]⟩
  | @tuple vs v hv _ ih =>
    obtain ⟨e, he⟩ := ih
    cases h : isfiniteEach vs with
    | error e' => exact ⟨e', by rw [isfiniteVar, h]⟩
    | ok rs =>
      obtain ⟨r, _, hr⟩ := each_left (each_ok h) hv
      rw [he] at hr
      cases hr
  | @list vs v hv _ ih =>
    obtain ⟨e, he⟩ := ih
    cases h : isfiniteEach vs with
    | error e' => exact ⟨e', by rw [isfiniteVar, h]⟩
    | ok rs =>
      obtain ⟨r, _, hr⟩ := each_left (each_ok h) hv
      rw [he] at hr
      cases hr

theorem raises_text : (v : FinArg) → {e : Err} → isfiniteVar v = .error e → e = .type ∧ Spec.HasText v
  | .num _, _, h => by rw [isfiniteVar] at h; cases h
  | .text, _, h => by rw [isfiniteVar] at h; cases h; exact ⟨rfl, .text⟩
  | .arr _, _, h => by rw [isfiniteVar] at h; cases h
  | .oo, _, h => by rw [isfiniteVar] at h; cases h
  | .sym _, _, h => by rw [isfiniteVar] at h; cases h
  | .set _, _, h => by rw [isfiniteVar] at h; cases h
  | .tuple vs, e, h => by
    rw [isfiniteVar] at h
    split at h
    · cases h
    · next e' he =>
      cases h
      obtain ⟨v, hv, h'⟩ := each_error he
      have := raises_text v h'
      exact ⟨this.1, .tuple hv this.2⟩
  | .list vs, e, h => by
    rw [isfiniteVar] at h
    split at h
    · cases h
    · next e' he =>
      cases h
      obtain ⟨v, hv, h'⟩ := each_error he
      have := raises_text v h'
      exact ⟨this.1, .list hv this.2⟩

/-- C118: TypeError is raised if and only if there is a text within, however deep, and nothing else is. -/
theorem C118_raises (v : FinArg) : (isfiniteVar v = .error .type ↔ Spec.HasText v) ∧
    ∀ e, isfiniteVar v = .error e → e = .type := by
  refine ⟨⟨fun h => (raises_text v h).2, fun h => ?_⟩, fun e h => (raises_text v h).1⟩
  obtain ⟨e, he⟩ := text_raises h
  rw [he, (raises_text v he).1]

/-- C118, full claim: all flags are true if and only if all is finite. -/
def C118_claim : Prop := ∀ v r, isfiniteVar v = .ok r → (Spec.AllTrue r ↔ Spec.AllFinite v)

/-- C118: a set of an infinite number is told to be finite. -/
theorem C118_claim_fails : ¬ C118_claim := by
  intro h
  have h1 := (h (.set [.infinite]) (.flag true) (by rw [isfiniteVar])).1 .flag
  cases h1 with
  | set h2 => exact absurd (h2 _ List.mem_cons_self) (by decide)

/-- C118: so are the complex infinity of Sympy and its `nan`. -/
theorem C118_sympy_fails : ¬ ∀ x r, isfiniteVar (.sym x) = .ok r → (Spec.AllTrue r ↔ Spec.AllFinite (.sym x)) := by
  intro h
  have h1 := (h .infinite (.flag true) (by rw [isfiniteVar])).1 .flag
  cases h1

/-- C118, proved part: all flags are true if and only if all is finite, unless there is, within, a set with numbers that
are not finite or such an object of Sympy besides the infinities of the real line. -/
theorem C118_finite_partial : (v : FinArg) → Spec.NoneHidden v → (r : FinRes) → isfiniteVar v = .ok r →
    (Spec.AllTrue r ↔ Spec.AllFinite v)
  | .num x, _, r, h => by
    rw [isfiniteVar] at h
    cases h
    cases x
    · exact ⟨fun _ => .num, fun _ => .flag⟩
    · exact ⟨fun h => (by cases h), fun h => (by cases h)⟩
    · exact ⟨fun h => (by cases h), fun h => (by cases h)⟩
  | .text, _, _, h => by rw [isfiniteVar] at h; cases h
  | .arr xs, _, r, h => by
    rw [isfiniteVar] at h
    cases h
    constructor
    · intro h
      cases h with
      | flags h => exact .arr fun x hx => (isfinite_num x).1 (h _ (List.mem_map_of_mem hx))
    · intro h
      cases h with
      | arr h =>
        refine .flags fun b hb => ?_
        obtain ⟨x, hx, rfl⟩ := List.mem_map.1 hb
        exact (isfinite_num x).2 (h x hx)
  | .oo, _, r, h => by
    rw [isfiniteVar] at h
    cases h
    exact ⟨fun h => (by cases h), fun h => (by cases h)⟩
  | .sym x, hp, r, h => by
    rw [isfiniteVar] at h
    cases h
    cases hp
    exact ⟨fun _ => .sym, fun _ => .flag⟩
  | .set xs, hp, r, h => by
    rw [isfiniteVar] at h
    cases h
    cases hp with
    | set hp => exact ⟨fun _ => .set hp, fun _ => .flag⟩
  | .tuple vs, hp, r, h => by
    obtain ⟨rs, rfl, hf⟩ := (C118_members vs r).1.1 h
    have hp' : ∀ v ∈ vs, Spec.NoneHidden v := by cases hp; assumption
    have := forall₂_all hf (p := Spec.AllFinite) (q := Spec.AllTrue) fun v hv r hr => C118_finite_partial v (hp' v hv) r hr
    exact ⟨fun h => .tuple (this.1 (by cases h; assumption)), fun h => .tuple (this.2 (by cases h; assumption))⟩
  | .list vs, hp, r, h => by
    obtain ⟨rs, rfl, hf⟩ := (C118_members vs r).2.1 h
    have hp' : ∀ v ∈ vs, Spec.NoneHidden v := by cases hp; assumption
    have := forall₂_all hf (p := Spec.AllFinite) (q := Spec.AllTrue) fun v hv r hr => C118_finite_partial v (hp' v hv) r hr
    exact ⟨fun h => .list (this.1 (by cases h; assumption)), fun h => .list (this.2 (by cases h; assumption))⟩

/-- The limits of a variable, one of which is infinite, and an array in a list. -/
example : isfiniteVar (.tuple [.num .finite, .oo, .list [.arr [.finite, .nan]]]) =
    .ok (.tuple [.flag true, .flag false, .list [.flags [true, false]]]) ∧
    Spec.NoneHidden (.tuple [.num .finite, .oo, .list [.arr [.finite, .nan]]]) := by
  refine ⟨by simp [isfiniteVar, isfiniteEach, FinNum.isfinite], .tuple fun v hv => ?_⟩
  simp only [List.mem_cons, List.not_mem_nil, or_false] at hv
  rcases hv with rfl | rfl | rfl
  · exact .num
  · exact .oo
  · exact .list fun v hv => by
      rw [List.mem_singleton.1 hv]
      exact .arr

/-- A text within a list within a tuple. -/
example : Spec.HasText (.tuple [.num .finite, .list [.text]]) :=
  .tuple (List.mem_cons_of_mem _ List.mem_cons_self) (.list List.mem_cons_self .text)

end Probayes
