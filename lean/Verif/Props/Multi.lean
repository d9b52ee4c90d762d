/-
Property C68: indexing several functions.
-/
import Mathlib.Tactic.Linarith
import Verif.Model.Multi
import Verif.Lemmas.PDBuild

namespace Probayes

namespace Spec

/-- The member an index denotes: positions count from zero, -1 is the last. -/
inductive Denotes {F : Type} : Multi F → MKey → F → Prop
  | pos (fs : List F) (i : ℕ) (f : F) : fs[i]? = some f → Denotes (.tuple fs) (.pos i) f
  | last (fs : List F) (f : F) : Denotes (.tuple (fs ++ [f])) (.pos (-1)) f
  | name (d : Dict Str F) (s : Str) (f : F) : (s, f) ∈ d → Denotes (.dict d) (.name s) f

/-- The members of the handles returned, in order. -/
inductive Handles {F : Type} (M : Multi F) : List Use → List F → Prop
  | nil : Handles M [] []
  | index (us : List Use) (hs : List F) (k : MKey) (f : F) : Handles M us hs → Denotes M k f →
      Handles M (us ++ [.index k]) (hs ++ [f])
  | refused (us : List Use) (hs : List F) (k : MKey) : Handles M us hs → (∀ f, ¬ Denotes M k f) →
      Handles M (us ++ [.index k]) hs
  | call (us : List Use) (hs : List F) (h : ℕ) : Handles M us hs → Handles M (us ++ [.call h]) hs

/-- The names of a dictionary are different. -/
def Distinct {F : Type} : Multi F → Prop
  | .tuple _ => True
  | .dict d => d.keys.Nodup

/-- The number of functions. -/
def size {F : Type} : Multi F → ℕ
  | .tuple fs => fs.length
  | .dict d => d.length

end Spec

theorem get?_numbered {F : Type} (fs : List F) : ∀ (i : ℕ) (z : ℤ),
    Dict.get? (numbered i fs) (.pos z) = if (i : ℤ) ≤ z then fs[(z - i).toNat]? else none := by
  induction fs with
  | nil => intro i z; simp [numbered, Dict.get?]
  | cons f fs ih =>
    intro i z
    have : Dict.get? (numbered i (f :: fs)) (.pos z) =
        if (MKey.pos i) = .pos z then some f else Dict.get? (numbered (i + 1) fs) (.pos z) := by
      simp only [numbered, Dict.get?]
    rw [this, ih]
    by_cases h : (i : ℤ) = z
    · subst h; simp
    · have : MKey.pos (i : ℤ) ≠ .pos z := fun e => h (by injection e)
      rw [if_neg this]
      push_cast
      by_cases h2 : (i : ℤ) ≤ z
      · rw [if_pos (by omega), if_pos h2]
        have : (z - i).toNat = (z - (i + 1)).toNat + 1 := by omega
        rw [this, List.getElem?_cons_succ]
      · rw [if_neg (by omega), if_neg h2]

theorem get?_numbered_name {F : Type} (fs : List F) : ∀ (i : ℕ) (s : Str),
    Dict.get? (numbered i fs) (.name s) = none := by
  induction fs with
  | nil => intro i s; rfl
  | cons f fs ih =>
    intro i s
    have := ih (i + 1) s
    simp only [numbered, Dict.get?] at this ⊢
    simpa using this

theorem length_numbered {F : Type} (fs : List F) : ∀ i : ℕ, (numbered i fs).length = fs.length := by
  induction fs with
  | nil => intro i; rfl
  | cons f fs ih => intro i; simp [numbered, ih]

theorem get?_tuple {F : Type} (fs : List F) (f : F) (hl : fs.getLast? = some f) (k : MKey) (g : F) :
    Dict.get? (numbered 0 fs ++ [(MKey.pos (-1), f)]) k = some g ↔ Spec.Denotes (.tuple fs) k g := by
  rw [Dict.get?_append]
  obtain ⟨fs', rfl⟩ := List.getLast?_eq_some_iff.mp hl
  cases k with
  | name s =>
    rw [get?_numbered_name]
    simp only [Option.none_or, Dict.get?]
    constructor
    · intro h; simp at h
    · intro h
      generalize hM : (Multi.tuple (fs' ++ [f]) : Multi F) = M at h
      cases h with
      | name d s f h => cases hM
  | pos z =>
    rw [get?_numbered]
    by_cases hz : z = -1
    · subst hz
      simp only [Int.natCast_zero, Int.reduceLE, if_false, Option.none_or, Dict.get?]
      constructor
      · intro h
        simp at h
        subst h
        exact .last fs' f
      · intro h
        generalize hM : (Multi.tuple (fs' ++ [f]) : Multi F) = M at h
        generalize hk : MKey.pos (-1) = k at h
        cases h with
        | pos fs i f h => injection hk with hk; omega
        | last fs g =>
          injection hM with hM
          have := List.append_inj' hM rfl
          simp at this
          simp [this.2]
        | name d s f h => cases hk
    · have : Dict.get? [(MKey.pos (-1), f)] (.pos z) = none := by
        have : MKey.pos (-1) ≠ .pos z := fun h => hz (by injection h with h; exact h.symm)
        simp [Dict.get?, this]
      rw [this, Option.or_none]
      constructor
      · intro h
        split at h
        · rename_i hz0
          have := Spec.Denotes.pos (fs' ++ [f]) (z - 0).toNat g h
          have e : (((z - 0).toNat : ℕ) : ℤ) = z := by
            simp at hz0 ⊢; exact hz0
          rwa [e] at this
        · cases h
      · intro h
        generalize hM : (Multi.tuple (fs' ++ [f]) : Multi F) = M at h
        generalize hk : MKey.pos z = k at h
        cases h with
        | pos fs i f h =>
          injection hM with hM
          injection hk with hk
          subst hM hk
          rw [if_pos (by simp)]
          simpa using h
        | last fs g => injection hk with hk; exact absurd hk hz
        | name d s f h => cases hk

theorem get?_named {F : Type} (d : Dict Str F) (hd : d.keys.Nodup) (k : MKey) (g : F) :
    Dict.get? (d.map fun kv => (MKey.name kv.1, kv.2)) k = some g ↔ Spec.Denotes (.dict d) k g := by
  constructor
  · intro h
    have := Dict.get?_mem h
    obtain ⟨kv, hkv, he⟩ := List.mem_map.mp this
    cases he
    exact .name d _ _ hkv
  · intro h
    cases h with
    | name d s f h =>
      apply Dict.get?_of_mem
      · rw [Dict.keys, List.map_map]
        have : (d.map (Prod.fst ∘ fun kv => (MKey.name kv.1, kv.2))) = d.keys.map MKey.name := by
          rw [Dict.keys, List.map_map]; rfl
        rw [this]
        exact hd.map (fun a b h => MKey.name.inj h)
      · exact List.mem_map.mpr ⟨(s, g), h, rfl⟩

/-- C68: an index gives the member it denotes, and any other index is refused
(missing: -1 for symbolic tuples, see `C68_last_claim`). -/
theorem C68_item_partial {F : Type} (M : Multi F) (hM : Spec.Distinct M) (p : Dict MKey F)
    (hp : partials false M = .ok p) (k : MKey) :
    (∀ f, Spec.Denotes M k f → multiItem p k = .ok f) ∧
      ((∀ f, ¬ Spec.Denotes M k f) → Raises (multiItem p k)) := by
  have key : ∀ g, Dict.get? p k = some g ↔ Spec.Denotes M k g := by
    intro g
    cases M with
    | tuple fs =>
      rw [partials, if_neg (by simp)] at hp
      cases hl : fs.getLast? with
      | none => rw [hl] at hp; cases hp
      | some f =>
        rw [hl] at hp
        cases hp
        exact get?_tuple fs f hl k g
    | dict d =>
      cases hp
      exact get?_named d hM k g
  unfold multiItem
  refine ⟨fun f hf => by rw [(key f).mpr hf], fun hno => ?_⟩
  cases hg : Dict.get? p k with
  | none => exact ⟨.key, rfl⟩
  | some f => exact absurd ((key f).mp hg) (hno f)

theorem exprUses_append {F : Type} (p : Dict MKey F) (us vs : List Use) : ∀ hs : List F,
    ∃ hs', exprUses p hs (us ++ vs) = exprUses p hs us ++ exprUses p hs' vs := by
  induction us with
  | nil => intro hs; exact ⟨hs, rfl⟩
  | cons u us ih =>
    intro hs
    cases u with
    | index k =>
      simp only [List.cons_append, exprUses]
      cases multiItem p k with
      | ok f => obtain ⟨hs', h⟩ := ih (hs ++ [f]); exact ⟨hs', by simp [h]⟩
      | error e => obtain ⟨hs', h⟩ := ih hs; exact ⟨hs', by simp [h]⟩
    | call n =>
      simp only [List.cons_append, exprUses]
      obtain ⟨hs', h⟩ := ih hs
      cases hs[n]? with
      | some f => exact ⟨hs', by simp [h]⟩
      | none => exact ⟨hs', by simp [h]⟩

theorem length_exprUses {F : Type} (p : Dict MKey F) (us : List Use) : ∀ hs, (exprUses p hs us).length = us.length := by
  induction us with
  | nil => intro hs; rfl
  | cons u us ih =>
    intro hs
    cases u with
    | index k =>
      simp only [exprUses]
      cases multiItem p k <;> simp [ih]
    | call n =>
      simp only [exprUses]
      cases hs[n]? <;> simp [ih]

/-- C68: whatever else has been indexed or called in the meantime, a handle calls
the member its index denotes. -/
theorem C68_handles {F : Type} (M : Multi F) (hM : Spec.Distinct M) (p : Dict MKey F)
    (hp : partials false M = .ok p) (before after : List Use) (hs : List F) (hh : Spec.Handles M before hs) (n : ℕ)
    (f : F) (hf : hs[n]? = some f) :
    (exprUses p [] (before ++ .call n :: after))[before.length]? = some (.called f) := by
  have key : ∀ (us : List Use) (hs : List F), Spec.Handles M us hs → ∀ vs,
      exprUses p [] (us ++ vs) = exprUses p [] us ++ exprUses p hs vs := by
    intro us hs h
    induction h with
    | nil => intro vs; rfl
    | index us hs k f h hk ih =>
      intro vs
      have hi := (C68_item_partial M hM p hp k).1 f hk
      rw [List.append_assoc, ih, ih]
      simp [exprUses, hi]
    | refused us hs k h hk ih =>
      intro vs
      obtain ⟨e, hi⟩ := (C68_item_partial M hM p hp k).2 hk
      rw [List.append_assoc, ih, ih]
      simp [exprUses, hi]
    | call us hs n h ih =>
      intro vs
      rw [List.append_assoc, ih, ih]
      simp only [exprUses, List.cons_append, List.nil_append]
      cases hs[n]? <;> simp
  rw [key before hs hh, List.getElem?_append_right (by rw [length_exprUses]), length_exprUses, Nat.sub_self]
  simp [exprUses, hf]

/-- C68 claim about symbolic functions: -1 is the last here, too. -/
def C68_last_claim : Prop :=
  ∀ (fs : List ℕ) (f : ℕ) (p : Dict MKey ℕ), partials true (.tuple (fs ++ [f])) = .ok p →
    multiItem p (.pos (-1)) = .ok f

/-- The claim fails: tuples of symbolic expressions never have the index -1. -/
theorem C68_last_claim_fails : ¬ C68_last_claim := by
  intro h
  have := h [] 0 _ rfl
  simp [multiItem, numbered, Dict.get?] at this

/-- C68: symbolic tuples have exactly their positions as indices. -/
theorem C68_symbolic {F : Type} (fs : List F) (p : Dict MKey F) (hp : partials true (.tuple fs) = .ok p) :
    (∀ (i : ℕ) (f : F), fs[i]? = some f → multiItem p (.pos i) = .ok f) ∧
      (∀ k, (∀ (i : ℕ), i < fs.length → k ≠ .pos i) → Raises (multiItem p k)) := by
  cases hp
  refine ⟨?_, ?_⟩
  · intro i f h
    rw [multiItem, get?_numbered]
    simp [h]
  · intro k hk
    refine ⟨.key, ?_⟩
    unfold multiItem
    cases k with
    | name s => rw [get?_numbered_name]
    | pos z =>
      rw [get?_numbered]
      split
      · rename_i f hf
        exfalso
        split at hf
        · rename_i hz
          have hlt : (z - 0).toNat < fs.length := by
            by_contra hc
            rw [List.getElem?_eq_none (by simpa using hc)] at hf
            cases hf
          exact hk _ hlt (by congr 1; simp at hz; omega)
        · cases hf
      · rfl

/-- C68 claim: the length of a multiple is the number of its functions. -/
def C68_len_claim : Prop :=
  ∀ (M : Multi ℕ) (iconic : Bool) (p : Dict MKey ℕ), partials iconic M = .ok p → multiLen p = Spec.size M

/-- C68: the length of a dictionary, or of a symbolic tuple, is the number of its
functions; that of another tuple is one more, -1 being counted. -/
theorem C68_len_partial {F : Type} (M : Multi F) (iconic : Bool) (p : Dict MKey F) (hp : partials iconic M = .ok p) :
    multiLen p = Spec.size M + match M, iconic with
      | .tuple _, false => 1
      | _, _ => 0 := by
  cases M with
  | dict d => cases hp; simp [multiLen, Spec.size]
  | tuple fs =>
    cases iconic with
    | true => cases hp; simp [multiLen, Spec.size, length_numbered]
    | false =>
      rw [partials, if_neg (by simp)] at hp
      cases hl : fs.getLast? with
      | none => rw [hl] at hp; cases hp
      | some f =>
        rw [hl] at hp
        cases hp
        simp [multiLen, Spec.size, length_numbered]

theorem C68_len_claim_fails : ¬ C68_len_claim := by
  intro h
  have := h (.tuple [0, 1]) false _ rfl
  simp [multiLen, Spec.size, numbered] at this

/-- C68 claim for the deprecated wrapper: a handle calls the member its index
denotes, whatever happened in the meantime. -/
def C68_func_claim : Prop :=
  ∀ (fs : List ℕ) (before : List Use) (hs : List ℕ) (n f : ℕ), Spec.Handles (.tuple fs) before hs → hs[n]? = some f →
    (funcUses fs none (before ++ [.call n]))[before.length]? = some (.called f)

/-- The claim fails: with two handles, the first calls the member of the second. -/
theorem C68_func_claim_fails : ¬ C68_func_claim := by
  intro h
  have h1 : Spec.Handles (.tuple [7, 8]) [.index (.pos (0 : ℕ)), .index (.pos (1 : ℕ))] [7, 8] :=
    .index [_] [_] _ _ (.index [] [] _ _ .nil (.pos _ 0 7 rfl)) (.pos _ 1 8 rfl)
  have := h [7, 8] _ _ 0 7 h1 rfl
  simp [funcUses, tupleItem] at this

/-- It fails also for a single handle that is called again. -/
theorem C68_func_once {F : Type} (fs : List F) (k : MKey) (f : F) (h : tupleItem fs k = .ok f) :
    funcUses fs none [.index k, .call 0, .call 0] = [.handle, .called f, .raised .type] := by
  simp [funcUses, h]

/-- C68 for the deprecated wrapper (missing: anything but calling the handle at
once, see `C68_func_claim`). -/
theorem C68_func_partial {F : Type} (fs : List F) (before after : List Use) (k : MKey) (f : F) (h : ℕ)
    (hk : Spec.Denotes (.tuple fs) k f) :
    (funcUses fs none (before ++ .index k :: .call h :: after))[before.length + 1]? = some (.called f) := by
  have hitem : tupleItem fs k = .ok f := by
    generalize hM : (Multi.tuple fs : Multi F) = M at hk
    cases hk with
    | pos fs' i f hf =>
      injection hM with hM
      subst hM
      have h0 : ¬ ((i : ℤ) < 0) := by omega
      simp [tupleItem, hf, h0]
    | last fs' f =>
      injection hM with hM
      subst hM
      simp [tupleItem]
    | name d s f h => cases hM
  have key : ∀ (us : List Use) (st : Option MKey), ∃ st' out, out.length = us.length ∧
      ∀ vs, funcUses fs st (us ++ vs) = out ++ funcUses fs st' vs := by
    intro us
    induction us with
    | nil => intro st; exact ⟨st, [], rfl, fun _ => rfl⟩
    | cons u us ih =>
      intro st
      cases u with
      | index k =>
        obtain ⟨st', out, h1, h2⟩ := ih (some k)
        exact ⟨st', .handle :: out, by simp [h1], fun vs => by simp [funcUses, h2]⟩
      | call n =>
        cases st with
        | none =>
          obtain ⟨st', out, h1, h2⟩ := ih none
          exact ⟨st', .raised .type :: out, by simp [h1], fun vs => by simp [funcUses, h2]⟩
        | some k =>
          cases hk : tupleItem fs k with
          | ok f =>
            obtain ⟨st', out, h1, h2⟩ := ih none
            exact ⟨st', .called f :: out, by simp [h1], fun vs => by simp [funcUses, h2, hk]⟩
          | error e =>
            obtain ⟨st', out, h1, h2⟩ := ih (some k)
            exact ⟨st', .raised e :: out, by simp [h1], fun vs => by simp [funcUses, h2, hk]⟩
  obtain ⟨st', out, h1, h2⟩ := key before none
  rw [h2, List.getElem?_append_right (by omega), h1, Nat.add_sub_cancel_left]
  simp [funcUses, hitem]

/-! Acceptance -/

theorem sameAll_iff {α : Type} [DecidableEq α] (l : List α) : sameAll l = true ↔ ∀ a ∈ l, ∀ b ∈ l, a = b := by
  cases l with
  | nil => simp [sameAll]
  | cons x l =>
    simp only [sameAll, List.all_eq_true, decide_eq_true_eq]
    constructor
    · intro h a ha b hb
      have e : ∀ c ∈ x :: l, c = x := by
        intro c hc
        rcases List.mem_cons.mp hc with rfl | hc
        · rfl
        · exact h c hc
      rw [e a ha, e b hb]
    · intro h b hb
      exact h b (by simp [hb]) x (by simp)

/-- C68: members are accepted together exactly if they agree in what is observed
of them; arguments only for functions that are callable and not symbolic. -/
theorem C68_accepted_partial (ms : List Member) (opts : Bool) :
    multiCheck ms opts = .ok () ↔
      (∀ a ∈ ms, ∀ b ∈ ms, a.callable = b.callable ∧ a.lambda = b.lambda ∧ a.scalar = b.scalar ∧ a.iconic = b.iconic) ∧
      (opts = true → ∃ a ∈ ms, a.callable = true ∧ a.iconic = false) := by
  have hu : ∀ {β : Type} [DecidableEq β] (g : Member → β), sameAll (ms.map g) = true ↔ ∀ a ∈ ms, ∀ b ∈ ms, g a = g b := by
    intro β _ g
    rw [sameAll_iff]
    simp only [List.forall_mem_map]
  unfold multiCheck
  by_cases h1 : sameAll (ms.map Member.callable) = true
  · by_cases h2 : sameAll (ms.map Member.lambda) = true
    · by_cases h3 : sameAll (ms.map Member.scalar) = true
      · by_cases h4 : sameAll (ms.map Member.iconic) = true
        · simp only [h1, h2, h3, h4, Bool.not_true, Bool.false_eq_true, if_false]
          have hall : ∀ a ∈ ms, ∀ b ∈ ms,
              a.callable = b.callable ∧ a.lambda = b.lambda ∧ a.scalar = b.scalar ∧ a.iconic = b.iconic :=
            fun a ha b hb => ⟨(hu _).mp h1 a ha b hb, (hu _).mp h2 a ha b hb, (hu _).mp h3 a ha b hb, (hu _).mp h4 a ha b hb⟩
          cases opts with
          | false => simp only [Bool.and_false, Bool.false_eq_true, if_false, true_iff]; exact ⟨hall, by simp⟩
          | true =>
            cases ms with
            | nil => simp
            | cons m ms =>
              simp only [List.head?_cons, Option.map_some, Option.getD_some, Bool.and_true]
              constructor
              · intro h
                refine ⟨hall, fun _ => ⟨m, by simp, ?_⟩⟩
                cases hc : m.callable <;> cases hi : m.iconic <;> simp_all
              · rintro ⟨_, h⟩
                obtain ⟨a, ha, hc, hi⟩ := h trivial
                obtain ⟨e1, _, _, e4⟩ := hall m (by simp) a ha
                rw [e1, e4, hc, hi]
                rfl
        · simp only [h1, h2, h3, h4, Bool.not_true, Bool.false_eq_true, if_false, Bool.not_false, if_true]
          constructor
          · intro h; cases h
          · intro h; exact absurd ((hu _).mpr fun a ha b hb => (h.1 a ha b hb).2.2.2) h4
      · simp only [h1, h2, h3, Bool.not_true, Bool.false_eq_true, if_false, Bool.not_false, if_true]
        constructor
        · intro h; cases h
        · intro h; exact absurd ((hu _).mpr fun a ha b hb => (h.1 a ha b hb).2.2.1) h3
    · simp only [h1, h2, Bool.not_true, Bool.false_eq_true, if_false, Bool.not_false, if_true]
      constructor
      · intro h; cases h
      · intro h; exact absurd ((hu _).mpr fun a ha b hb => (h.1 a ha b hb).2.1) h2
  · simp only [h1, Bool.not_false, if_true]
    constructor
    · intro h; cases h
    · intro h; exact absurd ((hu _).mpr fun a ha b hb => (h.1 a ha b hb).1) h1

/-- C68 claim: two functions neither of which is a lambda are accepted. -/
def C68_accepted_claim : Prop :=
  ∀ (isfunction isfunction' : Bool),
    multiCheck [⟨true, islambda true isfunction false, false, false⟩, ⟨true, islambda true isfunction' false, false, false⟩]
      false = .ok ()

/-- The claim fails: a function defined by `def` and a callable object (as NumPy's)
are taken to be a lambda and none. -/
theorem C68_accepted_claim_fails : ¬ C68_accepted_claim := by
  intro h
  have := h true false
  simp [multiCheck, islambda, sameAll] at this

/-- C68: constants of one kind are accepted together, whatever they are. -/
theorem C68_constants (ms : List (Bool × Bool)) (scalar : Bool) :
    multiCheck (ms.map fun m => ⟨false, islambda false m.1 m.2, scalar, false⟩) false = .ok () := by
  rw [C68_accepted_partial]
  refine ⟨?_, by simp⟩
  intro a ha b hb
  obtain ⟨m, _, rfl⟩ := List.mem_map.1 ha
  obtain ⟨m', _, rfl⟩ := List.mem_map.1 hb
  simp [islambda]

/-- Non-vacuity: three functions, two handles alive at once and one refused. -/
example : ∃ p, partials false (.tuple ['f', 'g', 'h']) = .ok p ∧
    Spec.Handles (.tuple ['f', 'g', 'h']) [.index (.pos (1 : ℕ)), .index (.pos 5), .index (.pos (-1))] ['g', 'h'] := by
  refine ⟨_, rfl, ?_⟩
  refine .index [_, _] [_] _ 'h' (.refused [_] _ _ (.index [] [] _ _ .nil (.pos _ 1 _ rfl)) ?_) (.last ['f', 'g'] 'h')
  intro f h
  generalize hM : (Multi.tuple ['f', 'g', 'h'] : Multi Char) = M at h
  generalize hk : MKey.pos 5 = k at h
  cases h with
  | pos fs i f h =>
    injection hM with hM
    injection hk with hk
    subst hM
    have : i = 5 := by omega
    subst this
    simp at h
  | last fs g => injection hk with hk; omega
  | name d s f h => cases hk

end Probayes
