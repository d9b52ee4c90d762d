/-
C92: symbolic distributions.
-/
import Verif.Model.Symbolic
import Verif.Lemmas.PDInit
import Mathlib.Tactic.Linarith

namespace Probayes

/-! ### Specification -/

/-- The value of an expression depends on its symbols only. -/
def Spec.Closed (e : SExpr) : Prop := ∀ ρ ρ' : Sy → ℝ, (∀ s ∈ e.syms, ρ s = ρ' s) → e.val ρ = e.val ρ'

/-- The same expression in effect: the same symbols and the same values. -/
def Spec.SameExpr (e e' : SExpr) : Prop := (∀ s, s ∈ e.syms ↔ s ∈ e'.syms) ∧ ∀ ρ, e.val ρ = e'.val ρ

/-- No symbol of `e` has the name of one of `own` between double underscores. -/
def Spec.FreshFor (own e : SExpr) : Prop := ∀ s ∈ own.syms, ∀ t ∈ e.syms, t.name ≠ "__".toList ++ s.name ++ "__".toList

/-- All symbols have names. -/
def Spec.NamedSyms (e : SExpr) : Prop := ∀ s ∈ e.syms, s.name ≠ []

/-- An order in which substitutions are made. -/
def Spec.Order (ord : List (Sy × Sy) → List (Sy × Sy)) : Prop := ∀ l, (ord l).Perm l

/-! ### Substitutions -/

/-- Symbols under substitutions one after the other. -/
def syAct (l : List (Sy × Sy)) (s : Sy) : Sy := l.foldl (fun s ab => Sy.swap ab.1 ab.2 s) s

theorem foldl_val (l : List (Sy × Sy)) : ∀ (e : SExpr) (ρ : Sy → ℝ),
    (l.foldl SExpr.sub1 e).val ρ = e.val fun s => ρ (syAct l s) := by
  induction l with
  | nil => intro e ρ; rfl
  | cons ab l ih => intro e ρ; rw [List.foldl_cons, ih]; rfl

theorem foldl_syms (l : List (Sy × Sy)) : ∀ (e : SExpr) (t : Sy),
    t ∈ (l.foldl SExpr.sub1 e).syms ↔ ∃ s ∈ e.syms, syAct l s = t := by
  induction l with
  | nil => intro e t; simp [syAct]
  | cons ab l ih =>
    intro e t
    rw [List.foldl_cons, ih]
    simp only [SExpr.sub1, List.mem_dedup, List.mem_map, syAct, List.foldl_cons]
    constructor
    · rintro ⟨u, ⟨s, hs, rfl⟩, h⟩; exact ⟨s, hs, h⟩
    · rintro ⟨s, hs, h⟩; exact ⟨_, ⟨s, hs, rfl⟩, h⟩

theorem syAct_none (l : List (Sy × Sy)) : ∀ s, (∀ ab ∈ l, ab.1 ≠ s) → syAct l s = s := by
  induction l with
  | nil => intro s _; rfl
  | cons ab l ih =>
    intro s h
    have h1 : Sy.swap ab.1 ab.2 s = s := if_neg fun e => h ab (by simp) e.symm
    change syAct l (Sy.swap ab.1 ab.2 s) = s
    rw [h1]
    exact ih s fun ab hab => h ab (by simp [hab])

theorem syAct_some (l : List (Sy × Sy)) (s b : Sy) (hm : (s, b) ∈ l) (hf : ∀ b', (s, b') ∈ l → b' = b)
    (hb : ∀ ab ∈ l, ab.1 ≠ b) : syAct l s = b := by
  induction l with
  | nil => simp at hm
  | cons ab l ih =>
    change syAct l (Sy.swap ab.1 ab.2 s) = b
    by_cases h : s = ab.1
    · have h2 : ab.2 = b := hf ab.2 (by rw [h]; simp)
      have h1 : Sy.swap ab.1 ab.2 s = b := by rw [Sy.swap, if_pos h, h2]
      rw [h1]
      exact syAct_none l b fun ab hab => hb ab (by simp [hab])
    · have h1 : Sy.swap ab.1 ab.2 s = s := if_neg h
      rw [h1]
      refine ih ?_ (fun b' hb' => hf b' (by simp [hb'])) fun ab hab => hb ab (by simp [hab])
      rcases List.mem_cons.mp hm with h' | h'
      · exact absurd (by rw [← h']) h
      · exact h'

/-! ### Symbols by name -/

theorem collateSym_fold (l : List Sy) : ∀ d : Dict Str Sy, (∀ k s, Dict.get? d k = some s → s.name = k) →
    (∀ k s, Dict.get? (l.foldl (fun d s => d.set s.name s) d) k = some s →
      s.name = k ∧ (s ∈ l ∨ Dict.get? d k = some s)) ∧
    (∀ s ∈ l, ∃ t, Dict.get? (l.foldl (fun d s => d.set s.name s) d) s.name = some t) ∧
    (∀ k s, Dict.get? d k = some s → ∃ t, Dict.get? (l.foldl (fun d s => d.set s.name s) d) k = some t) := by
  induction l with
  | nil => intro d hd; exact ⟨fun k s h => ⟨hd k s h, .inr h⟩, by simp, fun k s h => ⟨s, h⟩⟩
  | cons a l ih =>
    intro d hd
    obtain ⟨h1, h2, h3⟩ := ih (d.set a.name a) (by
      intro k s h
      rw [Dict.get?_set] at h
      split at h
      · rename_i hk; cases h; exact hk
      · exact hd k s h)
    have hself : Dict.get? (d.set a.name a) a.name = some a := by rw [Dict.get?_set, if_pos rfl]
    refine ⟨fun k s h => ?_, fun s hs => ?_, fun k s h => ?_⟩
    · obtain ⟨e1, e2⟩ := h1 k s h
      refine ⟨e1, ?_⟩
      rcases e2 with e2 | e2
      · exact .inl (by simp [e2])
      · rw [Dict.get?_set] at e2
        split at e2
        · cases e2; exact .inl (by simp)
        · exact .inr e2
    · rcases List.mem_cons.mp hs with rfl | hs
      · exact h3 _ _ hself
      · exact h2 s hs
    · by_cases hk : a.name = k
      · subst hk; exact h3 _ _ hself
      · exact h3 k s (by rw [Dict.get?_set, if_neg hk]; exact h)

theorem collate_name {e : SExpr} {k : Str} {s : Sy} (h : Dict.get? (collateSymbols e) k = some s) :
    s.name = k ∧ s ∈ e.syms := by
  obtain ⟨h1, h2⟩ := (collateSym_fold e.syms [] (by simp [Dict.get?])).1 k s h
  exact ⟨h1, h2.resolve_right (by simp [Dict.get?])⟩

theorem collate_has {e : SExpr} {s : Sy} (h : s ∈ e.syms) : ∃ t, Dict.get? (collateSymbols e) s.name = some t :=
  (collateSym_fold e.syms [] (by simp [Dict.get?])).2.1 s h

theorem collate_nodup (e : SExpr) : (collateSymbols e).keys.Nodup := by
  unfold collateSymbols
  suffices ∀ (l : List Sy) (d : Dict Str Sy), d.keys.Nodup → (l.foldl (fun d s => d.set s.name s) d).keys.Nodup from
    this _ [] (by simp)
  intro l
  induction l with
  | nil => intro d h; exact h
  | cons a l ih => intro d h; exact ih _ (Dict.nodup_set h)

theorem collate_mem {e : SExpr} {k : Str} {s : Sy} :
    (k, s) ∈ collateSymbols e ↔ Dict.get? (collateSymbols e) k = some s :=
  ⟨Dict.get?_of_mem (collate_nodup e), Dict.get?_mem⟩

/-! ### Names -/

theorem realName_inj {a b : Str} (h : realName a = realName b) : a = b := by
  simpa [realName] using h

theorem origName_real (k : Str) : origName (realName k) = some k := by
  have hlen : (realName k).length = k.length + 4 := by simp [realName]
  have h1 : (realName k).length - 2 = k.length + 2 := by omega
  have ht : (realName k).take (k.length + 2) = ['_', '_'] ++ k := by
    rw [realName, List.take_append_of_le_length (by simp)]
    exact List.take_of_length_le (by simp)
  have hd : (realName k).drop (k.length + 2) = ['_', '_'] := by
    rw [realName, List.drop_append_of_le_length (by simp), List.drop_of_length_le (by simp)]
    rfl
  unfold origName
  rw [h1, ht, hd, if_pos ⟨by simp [realName], rfl⟩]
  rfl

theorem real_of_origName {key k : Str} (h : origName key = some k) (hk : k ≠ []) : key = realName k := by
  unfold origName at h
  split at h
  · rename_i hc
    obtain ⟨h1, h2⟩ := hc
    simp only [Option.some.injEq] at h
    have hlen : 4 < key.length := by
      by_contra hle
      apply hk
      rw [← h, List.drop_eq_nil_iff, List.length_take]
      omega
    have e1 : key.take (key.length - 2) = ['_', '_'] ++ k := by
      rw [← h]
      conv_lhs => rw [← List.take_append_drop 2 (key.take (key.length - 2))]
      rw [List.take_take, min_eq_left (by omega), h1]
    conv_lhs => rw [← List.take_append_drop (key.length - 2) key]
    rw [e1, h2]
    rfl
  · cases h

/-! ### Forth -/

theorem fresh_real {own e : SExpr} (h : Spec.FreshFor own e) {s t : Sy} (hs : s ∈ own.syms) (ht : t ∈ e.syms) :
    t.name ≠ realName s.name := h s hs t ht

/-- The real equivalent of a symbol that is known, any other symbol itself. -/
def syReal (own : SExpr) (s : Sy) : Sy :=
  if Dict.get? (collateSymbols own) s.name = some s then ⟨realName s.name, 1⟩ else s

/-- The known symbol of a real equivalent, any other symbol itself. -/
def syBack (own : SExpr) (t : Sy) : Sy :=
  match (origName t.name).bind fun k => Dict.get? (collateSymbols own) k with
  | some s => s
  | none => t

theorem forth_act {ord : List (Sy × Sy) → List (Sy × Sy)} (ho : Spec.Order ord) {own : SExpr}
    (hown : Spec.FreshFor own own) (s : Sy) :
    syAct (ord ((collateSymbols own).map fun kv => (kv.2, ⟨realName kv.1, 1⟩))) s = syReal own s := by
  have hmem : ∀ ab, ab ∈ ord ((collateSymbols own).map fun kv => (kv.2, (⟨realName kv.1, 1⟩ : Sy))) ↔
      Dict.get? (collateSymbols own) ab.1.name = some ab.1 ∧ ab.2 = ⟨realName ab.1.name, 1⟩ := by
    intro ab
    rw [(ho _).mem_iff, List.mem_map]
    constructor
    · rintro ⟨⟨k, t⟩, hk, rfl⟩
      have h1 := collate_mem.mp hk
      have h2 := (collate_name h1).1
      exact ⟨by rw [← h2] at h1; exact h1, by rw [← h2]⟩
    · rintro ⟨h1, h2⟩
      exact ⟨(ab.1.name, ab.1), collate_mem.mpr h1, by rw [← h2]⟩
  unfold syReal
  by_cases h : Dict.get? (collateSymbols own) s.name = some s
  · rw [if_pos h]
    apply syAct_some
    · exact (hmem _).mpr ⟨h, rfl⟩
    · intro b' hb'; exact ((hmem _).mp hb').2
    · intro ab hab he
      obtain ⟨h1, -⟩ := (hmem ab).mp hab
      exact fresh_real hown (collate_name h).2 (collate_name h1).2 (by rw [he])
  · rw [if_neg h]
    apply syAct_none
    rintro ab hab rfl
    exact h ((hmem ab).mp hab).1

/-! ### Back -/

/-- The symbols of `e` named like real equivalents are real. -/
def RealOnly (own e : SExpr) : Prop :=
  ∀ t ∈ e.syms, ∀ s ∈ own.syms, t.name = realName s.name → t.asm = 1

theorem back_act {ord : List (Sy × Sy) → List (Sy × Sy)} (ho : Spec.Order ord) {own e : SExpr}
    (hown : Spec.FreshFor own own) (hn : Spec.NamedSyms own) (hr : RealOnly own e) (t : Sy) (ht : t ∈ e.syms) :
    syAct (ord ((collateSymbols e).filterMap fun kv =>
      (origName kv.1).bind fun k => (Dict.get? (collateSymbols own) k).map fun s => (kv.2, s))) t = syBack own t := by
  have hmem : ∀ ab, ab ∈ ord ((collateSymbols e).filterMap fun kv =>
      (origName kv.1).bind fun k => (Dict.get? (collateSymbols own) k).map fun s => (kv.2, s)) ↔
      Dict.get? (collateSymbols e) ab.1.name = some ab.1 ∧
      ((origName ab.1.name).bind fun k => Dict.get? (collateSymbols own) k) = some ab.2 := by
    intro ab
    rw [(ho _).mem_iff, List.mem_filterMap]
    constructor
    · rintro ⟨⟨k, u⟩, hk, hu⟩
      have h1 := collate_mem.mp hk
      have h2 := (collate_name h1).1
      simp only [Option.bind_eq_some_iff, Option.map_eq_some_iff] at hu
      obtain ⟨k', hk', s, hs, rfl⟩ := hu
      refine ⟨by rw [← h2] at h1; exact h1, ?_⟩
      rw [h2, hk']; exact hs
    · rintro ⟨h1, h2⟩
      refine ⟨(ab.1.name, ab.1), collate_mem.mpr h1, ?_⟩
      simp only [Option.bind_eq_some_iff] at h2
      obtain ⟨k', hk', hs⟩ := h2
      simp only [hk', Option.bind_some, hs, Option.map_some]
  have hsrc : ∀ (u s : Sy), ((origName u.name).bind fun k => Dict.get? (collateSymbols own) k) = some s →
      s ∈ own.syms ∧ u.name = realName s.name := by
    intro u s hs
    simp only [Option.bind_eq_some_iff] at hs
    obtain ⟨k', hk', hs⟩ := hs
    obtain ⟨e1, e2⟩ := collate_name hs
    refine ⟨e2, ?_⟩
    rw [e1]
    exact real_of_origName hk' (by rw [← e1]; exact hn s e2)
  unfold syBack
  rcases hb : (origName t.name).bind fun k => Dict.get? (collateSymbols own) k with _ | s
  · apply syAct_none
    rintro ab hab rfl
    rw [((hmem ab).mp hab).2] at hb
    cases hb
  · obtain ⟨h1, h2⟩ := hsrc t s hb
    apply syAct_some
    · refine (hmem (t, s)).mpr ⟨?_, hb⟩
      obtain ⟨u, hu⟩ := collate_has ht
      obtain ⟨u1, u2⟩ := collate_name hu
      have : u = t := by
        have a1 := hr u u2 s h1 (u1.trans h2)
        have a2 := hr t ht s h1 h2
        cases u; cases t
        simp only at u1 a1 a2
        rw [u1, a1, a2]
      rw [hu, this]
    · intro b' hb'
      have := ((hmem _).mp hb').2
      rw [hb] at this
      exact (Option.some.inj this).symm
    · intro ab hab he
      obtain ⟨a1, a2⟩ := (hmem ab).mp hab
      obtain ⟨b1, b2⟩ := hsrc ab.1 ab.2 a2
      rw [he] at b2
      exact fresh_real hown b1 h1 b2

theorem back_real {own : SExpr} {s : Sy}
    (hf : ∀ u ∈ own.syms, s.name ≠ realName u.name) (hn : Spec.NamedSyms own) : syBack own (syReal own s) = s := by
  unfold syReal
  split
  · rename_i h
    unfold syBack
    simp only [origName_real, Option.bind_some, h]
  · unfold syBack
    split
    · rename_i u hu
      exfalso
      simp only [Option.bind_eq_some_iff] at hu
      obtain ⟨k, hk, hs⟩ := hu
      obtain ⟨e1, e2⟩ := collate_name hs
      refine hf u e2 ?_
      rw [e1]
      exact real_of_origName hk (by rw [← e1]; exact hn u e2)
    · rfl

theorem realOnly_forth {own e e' : SExpr} (he : Spec.FreshFor own e)
    (h : ∀ t ∈ e'.syms, ∃ s ∈ e.syms, syReal own s = t) : RealOnly own e' := by
  intro t ht u hu hname
  obtain ⟨s, hs, rfl⟩ := h t ht
  unfold syReal at hname ⊢
  split
  · rfl
  · rename_i h0
    rw [if_neg h0] at hname
    exact absurd hname (fresh_real he hu hs)

/-- Replacing symbols by real ones (`subre`), anything of no more symbols and the same value, and
back (`resub`). -/
theorem forth_back {ord : List (Sy × Sy) → List (Sy × Sy)} (ho : Spec.Order ord) {own e e' : SExpr}
    (hown : Spec.FreshFor own own) (he : Spec.FreshFor own e) (hn : Spec.NamedSyms own) (hc : Spec.Closed e)
    (hc' : Spec.Closed e') (F : ℝ → ℝ)
    (hv : ∀ ρ, e'.val ρ = F (e.val fun s => ρ (syReal own s)))
    (hs : ∀ t ∈ e'.syms, ∃ s ∈ e.syms, syReal own s = t) :
    (∀ ρ, (resub ord own e').val ρ = F (e.val ρ)) ∧
    ∀ s, s ∈ (resub ord own e').syms ↔ ∃ t ∈ e'.syms, syBack own t = s := by
  have hr := realOnly_forth he hs
  constructor
  · intro ρ
    unfold resub SExpr.subs
    rw [foldl_val]
    rw [hc' _ (fun t => ρ (syBack own t)) fun t ht => by rw [back_act ho hown hn hr t ht], hv]
    congr 1
    exact hc _ _ fun s hs => by rw [back_real (fun u hu => fresh_real he hu hs) hn]
  · intro s
    unfold resub SExpr.subs
    rw [foldl_syms]
    constructor
    · rintro ⟨t, ht, h⟩; exact ⟨t, ht, by rw [← back_act ho hown hn hr t ht]; exact h⟩
    · rintro ⟨t, ht, h⟩; exact ⟨t, ht, by rw [back_act ho hown hn hr t ht]; exact h⟩

theorem closed_subre {ord : List (Sy × Sy) → List (Sy × Sy)} (own : SExpr) (l : List (Sy × Sy)) {e : SExpr}
    (hc : Spec.Closed e) : Spec.Closed (e.subs ord l) := by
  intro ρ ρ' h
  unfold SExpr.subs at h ⊢
  rw [foldl_val, foldl_val]
  exact hc _ _ fun s hs => h _ ((foldl_syms _ _ _).mpr ⟨s, hs, rfl⟩)

/-- **C92 (intended), symbols replaced and restored.**  Replacing the known symbols of an
expression by real ones and back gives the expression. -/
def C92_restored_claim : Prop :=
  ∀ (ord : List (Sy × Sy) → List (Sy × Sy)) (own e : SExpr), Spec.Order ord → Spec.Closed own → Spec.Closed e →
    Spec.NamedSyms own → Spec.SameExpr (exprSimplify ord own (some e)) e

/-- **C92, symbols replaced and restored**: for expressions other than zero, if no symbols
are named like the real ones put in their place. -/
theorem C92_restored_partial (ord : List (Sy × Sy) → List (Sy × Sy)) (ho : Spec.Order ord) (own e : SExpr)
    (hc : Spec.Closed e) (hn : Spec.NamedSyms own) (hown : Spec.FreshFor own own) (he : Spec.FreshFor own e)
    (hz : e.zero = false) : Spec.SameExpr (exprSimplify ord own (some e)) e := by
  unfold exprSimplify subre
  simp only [hz, Bool.false_eq_true, if_false]
  have hsyms : ∀ t, t ∈ (e.subs ord ((collateSymbols own).map fun kv => (kv.2, ⟨realName kv.1, 1⟩))).syms ↔
      ∃ s ∈ e.syms, syReal own s = t := by
    intro t
    unfold SExpr.subs
    rw [foldl_syms]
    constructor
    · rintro ⟨s, hs, h⟩; exact ⟨s, hs, by rw [← forth_act ho hown]; exact h⟩
    · rintro ⟨s, hs, h⟩; exact ⟨s, hs, by rw [forth_act ho hown]; exact h⟩
  obtain ⟨h1, h2⟩ := forth_back ho hown he hn hc (closed_subre own _ hc) id
    (fun ρ => by
      unfold SExpr.subs
      rw [foldl_val]
      exact congrArg e.val (funext fun s => by rw [forth_act ho hown]))
    (fun t ht => (hsyms t).mp ht)
  refine ⟨fun s => ?_, h1⟩
  rw [h2]
  constructor
  · rintro ⟨t, ht, rfl⟩
    obtain ⟨s, hs, rfl⟩ := (hsyms t).mp ht
    rw [back_real (fun u hu => fresh_real he hu hs) hn]
    exact hs
  · intro hs
    exact ⟨_, (hsyms _).mpr ⟨s, hs, rfl⟩, back_real (fun u hu => fresh_real he hu hs) hn⟩

/-- **C92, logarithm.**  If sympy's `simplify` keeps values (where all symbols are real) and
brings in no symbols, the expression for the logarithm has the logarithm of the density
as value everywhere. -/
theorem C92_logp (ord : List (Sy × Sy) → List (Sy × Sy)) (ho : Spec.Order ord) (simp : SExpr → SExpr)
    (hsv : ∀ e, (∀ s ∈ e.syms, s.asm = 1) → ∀ ρ, (simp e).val ρ = e.val ρ)
    (hss : ∀ e, ∀ s ∈ (simp e).syms, s ∈ e.syms)
    (hsc : ∀ e, Spec.Closed e → Spec.Closed (simp e)) (pdf : SExpr) (hc : Spec.Closed pdf) (hn : Spec.NamedSyms pdf)
    (hf : Spec.FreshFor pdf pdf) (hd : (pdf.syms.map Sy.name).Nodup) (hz : pdf.zero = false) (ρ : Sy → ℝ) :
    (logpExpr ord simp pdf).val ρ = Real.log (pdf.val ρ) := by
  have hall : ∀ s ∈ pdf.syms, Dict.get? (collateSymbols pdf) s.name = some s := by
    intro s hs
    obtain ⟨t, ht⟩ := collate_has hs
    obtain ⟨h1, h2⟩ := collate_name ht
    rw [ht, List.inj_on_of_nodup_map hd h2 hs h1]
  have hsyms : ∀ t, t ∈ (subre ord pdf (some pdf)).syms → ∃ s ∈ pdf.syms, syReal pdf s = t := by
    intro t ht
    unfold subre SExpr.subs at ht
    simp only [hz, Bool.false_eq_true, if_false] at ht
    obtain ⟨s, hs, h⟩ := (foldl_syms _ _ _).mp ht
    exact ⟨s, hs, by rw [← forth_act ho hf]; exact h⟩
  have hval : ∀ ρ, (subre ord pdf (some pdf)).val ρ = pdf.val fun s => ρ (syReal pdf s) := by
    intro ρ
    unfold subre SExpr.subs
    simp only [hz, Bool.false_eq_true, if_false]
    rw [foldl_val]
    exact congrArg pdf.val (funext fun s => by rw [forth_act ho hf])
  have hcl : Spec.Closed (subre ord pdf (some pdf)) := by
    unfold subre
    simp only [hz, Bool.false_eq_true, if_false]
    exact closed_subre pdf _ hc
  refine (forth_back ho hf hf hn hc (hsc _ ?_) Real.log ?_ ?_).1 ρ
  · intro ρ ρ' h
    exact congrArg Real.log (hcl ρ ρ' h)
  · intro ρ
    rw [hsv]
    · exact congrArg Real.log (hval ρ)
    · intro t ht
      obtain ⟨s, hs, rfl⟩ := hsyms t ht
      unfold syReal
      rw [if_pos (hall s hs)]
  · intro t ht
    exact hsyms t (hss (logExpr _) t ht)

/-! ### Negations -/

/-- An expression that is a symbol. -/
def symExpr (s : Sy) : SExpr := ⟨[s], fun ρ => ρ s, false⟩

theorem symExpr_closed (s : Sy) : Spec.Closed (symExpr s) := fun _ _ h => h s (by simp [symExpr])

/-- `simplify` of zero is the own expression. -/
theorem C92_zero (ord : List (Sy × Sy) → List (Sy × Sy)) (own e : SExpr) (h : e.zero = true) :
    exprSimplify ord own (some e) = exprSimplify ord own none := by
  simp [exprSimplify, subre, h]

theorem C92_restored_claim_fails : ¬ C92_restored_claim := by
  intro h
  obtain ⟨-, h2⟩ := h id (symExpr ⟨['x'], 0⟩) ⟨[], fun _ => 0, true⟩ (fun l => .refl _) (symExpr_closed _)
    (fun _ _ _ => rfl) (by simp [Spec.NamedSyms, symExpr])
  rw [C92_zero _ _ _ rfl] at h2
  have h3 := h2 fun _ => 1
  have : (exprSimplify id (symExpr ⟨['x'], 0⟩) none).val (fun _ => 1) = 1 := by
    unfold exprSimplify resub subre SExpr.subs
    rw [foldl_val, foldl_val]
    rfl
  rw [this] at h3
  exact one_ne_zero h3

/-- **C92, capture.**  A symbol that is named like the real equivalent of a known one becomes
the known one. -/
theorem C92_captured (ord : List (Sy × Sy) → List (Sy × Sy)) (ho : Spec.Order ord) :
    ∀ ρ, (exprSimplify ord (symExpr ⟨"x".toList, 0⟩) (some (symExpr ⟨"__x__".toList, 0⟩))).val ρ =
      ρ ⟨"x".toList, 0⟩ := by
  intro ρ
  have h1 : ∀ a : Sy × Sy, ord [a] = [a] := fun a => List.perm_singleton.mp (ho [a])
  have e1 : subre ord (symExpr ⟨"x".toList, 0⟩) (some (symExpr ⟨"__x__".toList, 0⟩)) = symExpr ⟨"__x__".toList, 0⟩ := by
    simp [subre, symExpr, SExpr.subs, collateSymbols, Dict.set, h1, SExpr.sub1, Sy.swap]
  unfold exprSimplify
  rw [e1]
  unfold resub SExpr.subs
  have e2 : (collateSymbols (symExpr ⟨"__x__".toList, 0⟩)).filterMap (fun kv =>
      (origName kv.1).bind fun k => (Dict.get? (collateSymbols (symExpr ⟨"x".toList, 0⟩)) k).map fun s => (kv.2, s)) =
      [(⟨"__x__".toList, 0⟩, ⟨"x".toList, 0⟩)] := by
    decide
  rw [e2, h1, foldl_val]
  rfl

/-! ### Finding the distribution, its inverse and samples -/

mutual
/-- The objects of a tree, each before its parts. -/
def Spec.preorder : STree → List (ℕ × Bool)
  | .leaf id cdf => [(id, cdf)]
  | .node id cdf args => (id, cdf) :: Spec.preorders args
/-- Those of several trees. -/
def Spec.preorders : List STree → List (ℕ × Bool)
  | [] => []
  | t :: ts => Spec.preorder t ++ Spec.preorders ts
end

mutual
theorem objFind_eq : ∀ t : STree, objFind t = ((Spec.preorder t).find? Prod.snd).map Prod.fst
  | .leaf id cdf => by cases cdf <;> rfl
  | .node id cdf args => by
      cases cdf
      · simp only [objFind, Spec.preorder, List.find?_cons, Bool.false_eq_true, if_false]
        exact objFirst_eq args
      · rfl
theorem objFirst_eq : ∀ ts : List STree, objFirst ts = ((Spec.preorders ts).find? Prod.snd).map Prod.fst
  | [] => rfl
  | t :: ts => by
      have h1 := objFind_eq t
      have h2 := objFirst_eq ts
      simp only [objFirst, Spec.preorders, List.find?_append]
      rcases h : (Spec.preorder t).find? Prod.snd with _ | p
      · rw [h] at h1
        simp only [h1, Option.map_none, Option.none_or, h2]
      · rw [h] at h1
        simp only [h1, Option.map_some, Option.some_or]
end

/-- **C92, finding the distribution.**  The object found is the first, each before its parts,
that has a cumulative function; without any a ValueError is raised. -/
theorem C92_found (t : STree) :
    (∀ id, objFromDist t = .ok id ↔ ((Spec.preorder t).find? Prod.snd).map Prod.fst = some id) ∧
    ((∀ p ∈ Spec.preorder t, p.2 = false) ↔ objFromDist t = .error .value) := by
  have hf := objFind_eq t
  unfold objFromDist
  constructor
  · intro id
    rw [← hf]
    rcases objFind t with _ | a <;> simp
  · have : (∀ p ∈ Spec.preorder t, p.2 = false) ↔ (Spec.preorder t).find? Prod.snd = none := by
      simp
    rw [this]
    rcases h : (Spec.preorder t).find? Prod.snd with _ | p
    · rw [h] at hf; simp [hf]
    · rw [h] at hf; simp [hf]

/-- **C92, inverse.**  Of the solutions one of shortest representation is kept, the first of
them. -/
theorem C92_inverse {α : Type} (l : List (ℕ × α)) (hl : l ≠ []) :
    ∃ pre s post, l = pre ++ s :: post ∧ pickInverse l = some s ∧ (∀ t ∈ pre, s.1 < t.1) ∧ ∀ t ∈ post, s.1 ≤ t.1 := by
  obtain ⟨s, l, rfl⟩ := List.exists_cons_of_ne_nil hl
  suffices ∀ (l pre mid : List (ℕ × α)) (s : ℕ × α), (∀ t ∈ pre, s.1 < t.1) → (∀ t ∈ mid, s.1 ≤ t.1) →
      ∃ pre' s' post', pre ++ s :: mid ++ l = pre' ++ s' :: post' ∧
        l.foldl (fun best t => if t.1 < best.1 then t else best) s = s' ∧ (∀ t ∈ pre', s'.1 < t.1) ∧
        ∀ t ∈ post', s'.1 ≤ t.1 by
    obtain ⟨pre, s', post, h1, h2, h3, h4⟩ := this l [] [] s (by simp) (by simp)
    exact ⟨pre, s', post, by simpa using h1, by simp [pickInverse, h2], h3, h4⟩
  intro l
  induction l with
  | nil => intro pre mid s h1 h2; exact ⟨pre, s, mid, by simp, rfl, h1, h2⟩
  | cons t l ih =>
    intro pre mid s h1 h2
    by_cases ht : t.1 < s.1
    · obtain ⟨p, s', q, e1, e2, e3, e4⟩ := ih (pre ++ s :: mid) [] t (by
        intro u hu
        rcases List.mem_append.mp hu with hu | hu
        · have := h1 u hu; omega
        · rcases List.mem_cons.mp hu with rfl | hu
          · exact ht
          · have := h2 u hu; omega) (by simp)
      refine ⟨p, s', q, ?_, ?_, e3, e4⟩
      · rw [← e1]; simp
      · rw [List.foldl_cons, if_pos ht]; exact e2
    · obtain ⟨p, s', q, e1, e2, e3, e4⟩ := ih pre (mid ++ [t]) s h1 (by
        intro u hu
        rcases List.mem_append.mp hu with hu | hu
        · exact h2 u hu
        · simp only [List.mem_singleton] at hu; subst hu; omega)
      refine ⟨p, s', q, ?_, ?_, e3, e4⟩
      · rw [← e1]; simp
      · rw [List.foldl_cons, if_neg ht]; exact e2

/-- **C92, samples.**  A positive size gives as many values as asked for, those sampled, in
order; none or zero gives one value. -/
theorem C92_samples {V : Type} (draw : ℕ → V) (conv : V → V) :
    (∀ n : ℕ, 0 < n → ∃ vs, sympySfun draw conv (some n) = .many vs ∧ vs.length = n ∧
      ∀ k (h : k < vs.length), vs[k] = conv (draw k)) ∧
    sympySfun draw conv none = .one (conv (draw 0)) ∧ sympySfun draw conv (some 0) = .one (conv (draw 0)) := by
  refine ⟨fun n hn => ⟨(List.range n).map fun k => conv (draw k), ?_, by simp, by simp⟩, rfl, rfl⟩
  have : (n : ℤ) ≠ 0 := by omega
  simp [sympySfun, this, Nat.pos_iff_ne_zero.mp hn]

/-! ### The distribution as a whole -/

/-- The entry under a name that denotes an expression. -/
def Spec.Under (s : SState) (k : String) (e : SExpr) : Prop := s.item (.key k.toList) = .ok (.entry (.expr e))

/-- **C92, contents.**  After a distribution is set, what can be asked for is what it has: the
density and its logarithm if it has a density, the cumulative function if it has one, an inverse if
one was found, and samples. -/
theorem C92_contents (ord : List (Sy × Sy) → List (Sy × Sy)) (simp : SExpr → SExpr) (d : SDist) (s : SState)
    (h : SState.setDistr ord simp (some d) = (s, none)) :
    (∀ e, Spec.Under s "prob" e ↔ d.pdf = some e) ∧
    (∀ e, Spec.Under s "logp" e ↔ ∃ p, d.pdf = some p ∧ e = logpExpr ord simp p) ∧
    (∀ e, Spec.Under s "cdf" e ↔ d.cdf = some e) ∧
    (∀ e, Spec.Under s "icdf" e ↔ d.cdf ≠ none ∧ ∃ n, pickInverse d.inverses = some (n, e)) ∧
    s.item (.key "sfun".toList) = .ok (.entry .sampler) ∧
    (s.item (.key []) = .ok (.names (
      (if d.pdf.isSome then ["prob".toList, "logp".toList] else []) ++
      (if d.cdf.isSome then "cdf".toList :: (if d.inverses = [] then [] else ["icdf".toList]) else []) ++
      ["sfun".toList]))) ∧
    s.item (.list true) = .ok (.obj (some d.id)) ∧
    ∃ o, objFromDist d.tree = .ok o ∧ s.item (.dict true) = .ok (.obj (some o)) := by
  have hp : (∀ l : List (ℕ × SExpr), l = [] ↔ pickInverse l = none) := by
    intro l; cases l <;> simp [pickInverse]
  unfold SState.setDistr at h
  rcases hD : d.isDist with _ | _
  · simp [hD] at h
  simp only [hD, if_true] at h
  rcases ho : objFromDist d.tree with e | o
  · rw [ho] at h; simp at h
  rw [ho] at h
  rcases hc : d.cterm with _ | c
  · rw [hc] at h; simp at h
  rw [hc] at h
  simp only [Prod.mk.injEq, and_true] at h
  subst h
  obtain ⟨id, isDist, tree, cterm, pdf, cdf, inverses⟩ := d
  simp only at hD ho hc
  simp only [Spec.Under, SState.item, hp]
  refine ⟨?_, ?_, ?_, ?_, ?_, ?_, ?_, o, rfl, ?_⟩ <;> (try intro e) <;>
    rcases pdf with _ | p <;> rcases cdf with _ | c' <;> rcases hpi : pickInverse inverses with _ | ⟨n, i⟩ <;>
    simp [sympyExprs, Dict.get?, Dict.keys, hpi] <;> exact eq_comm

/-- **C92, refused distributions.**  What is not a distribution is refused, and it is kept in place of
the one before, of which nothing is left. -/
theorem C92_refused (ord : List (Sy × Sy) → List (Sy × Sy)) (simp : SExpr → SExpr) (d : SDist) (h : d.isDist = false) :
    ∃ s, SState.setDistr ord simp (some d) = (s, some .assertion) ∧ s.item (.list true) = .ok (.obj (some d.id)) ∧
      (∀ k, Raises (s.item (.key k))) ∧ s.item (.dict true) = .ok (.obj none) := by
  refine ⟨⟨some d.id, none, none⟩, by simp only [SState.setDistr, h, Bool.false_eq_true, if_false], rfl,
    fun k => ⟨_, rfl⟩, rfl⟩

/-- **C92, what cannot be asked for**: tuples, and lists and dictionaries that are not empty; nor,
of what has been set up, names that it does not have. -/
theorem C92_unasked (s : SState) :
    Raises (s.item .tuple) ∧ Raises (s.item (.list false)) ∧ Raises (s.item (.dict false)) ∧
    ∀ names, s.item (.key []) = .ok (.names names) → ∀ k, k ≠ [] → k ∉ names → Raises (s.item (.key k)) := by
  refine ⟨⟨_, rfl⟩, ⟨_, rfl⟩, ⟨_, rfl⟩, fun names h k hk hn => ?_⟩
  obtain ⟨distr, probj, exprs⟩ := s
  rcases exprs with _ | d
  · simp [SState.item] at h
  · simp only [SState.item, if_true, Except.ok.injEq, SItem.names.injEq] at h
    subst h
    simp only [SState.item, if_neg hk, Dict.get?_eq_none.mpr hn]
    exact ⟨_, rfl⟩

/-! ### Examples -/

/-- The density `exp(-x)` of an exponential distribution. -/
noncomputable def expoPdf : SExpr := ⟨[⟨"x".toList, 0⟩], fun ρ => Real.exp (-ρ ⟨"x".toList, 0⟩), false⟩

theorem expoPdf_closed : Spec.Closed expoPdf := by
  intro ρ ρ' h
  simp only [expoPdf]
  rw [h _ (by simp [expoPdf])]

theorem expoPdf_fresh : Spec.FreshFor expoPdf expoPdf := by
  intro s hs t ht
  simp only [expoPdf, List.mem_singleton] at hs ht
  subst hs ht
  decide

example (ρ : Sy → ℝ) : (logpExpr id id expoPdf).val ρ = -ρ ⟨"x".toList, 0⟩ := by
  rw [C92_logp id (fun l => .refl _) id (fun _ _ _ => rfl) (fun _ _ h => h) (fun _ h => h) expoPdf expoPdf_closed
    (by simp [Spec.NamedSyms, expoPdf]) expoPdf_fresh (by simp [expoPdf]) rfl]
  exact Real.log_exp _

/-- Symbols `y` and `__z__` beside a known `x` come through. -/
example : Spec.SameExpr (exprSimplify List.reverse expoPdf
    (some ⟨[⟨"x".toList, 0⟩, ⟨"y".toList, 2⟩, ⟨"__z__".toList, 0⟩], fun ρ => ρ ⟨"x".toList, 0⟩ + 2 * ρ ⟨"y".toList, 2⟩ +
      3 * ρ ⟨"__z__".toList, 0⟩, false⟩))
    ⟨[⟨"x".toList, 0⟩, ⟨"y".toList, 2⟩, ⟨"__z__".toList, 0⟩], fun ρ => ρ ⟨"x".toList, 0⟩ + 2 * ρ ⟨"y".toList, 2⟩ +
      3 * ρ ⟨"__z__".toList, 0⟩, false⟩ := by
  refine C92_restored_partial _ (fun l => List.reverse_perm l) _ _ ?_ (by simp [Spec.NamedSyms, expoPdf]) expoPdf_fresh ?_ rfl
  · intro ρ ρ' h
    simp only [List.mem_cons, List.not_mem_nil, or_false] at h
    simp only
    rw [h _ (.inl rfl), h _ (.inr (.inl rfl)), h _ (.inr (.inr rfl))]
  · intro s hs t ht
    simp only [expoPdf, List.mem_singleton] at hs
    simp only [List.mem_cons, List.not_mem_nil, or_false] at ht
    subst hs
    rcases ht with rfl | rfl | rfl <;> decide

example : objFromDist (.node 0 false [.leaf 1 false, .node 2 false [.leaf 3 true], .leaf 4 true]) = .ok 3 := rfl

example : pickInverse [(5, 'a'), (3, 'b'), (7, 'c'), (3, 'd')] = some (3, 'b') := rfl

end Probayes
