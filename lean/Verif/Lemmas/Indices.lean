/-
Row-major positions of index lists, and counting in sorted lists.
-/
import Verif.Base.Arr

namespace Probayes

theorem length_indices (s : List ℕ) : (indices s).length = s.prod := by
  induction s with
  | nil => rfl
  | cons n s ih => simp [indices, List.length_flatMap, ih]

theorem getElem?_flatMap_block {α β : Type _} (f : α → List β) (m : ℕ) (hm : 0 < m) (l : List α)
    (hf : ∀ x ∈ l, (f x).length = m) (k : ℕ) :
    (l.flatMap f)[k]? = (l[k / m]?).bind fun x => (f x)[k % m]? := by
  induction l generalizing k with
  | nil => simp
  | cons x l ih =>
    have hx := hf x (by simp)
    rw [List.flatMap_cons]
    by_cases hk : k < m
    · rw [List.getElem?_append_left (by omega), Nat.div_eq_of_lt hk, Nat.mod_eq_of_lt hk]
      simp
    · rw [List.getElem?_append_right (by omega), hx, ih (fun y hy => hf y (by simp [hy]))]
      rw [Nat.div_eq_sub_div (a := k) hm (by omega), List.getElem?_cons_succ, Nat.mod_eq_sub_mod (a := k) (by omega)]

/-- The `k`th index list is the one at row-major position `k`. -/
theorem getElem?_indices {s : List ℕ} {k : ℕ} (hk : k < s.prod) :
    (indices s)[k]? = some (unravelIx s k) := by
  induction s generalizing k with
  | nil => simp at hk; subst hk; rfl
  | cons n s ih =>
    rw [List.prod_cons] at hk
    have hm : 0 < s.prod := by
      rcases Nat.eq_zero_or_pos s.prod with h | h
      · rw [h] at hk; simp at hk
      · exact h
    have h1 : k / s.prod < n := (Nat.div_lt_iff_lt_mul hm).mpr hk
    rw [indices, getElem?_flatMap_block _ s.prod hm _ (by intro x _; simp [length_indices]),
      List.getElem?_range h1]
    simp [ih (Nat.mod_lt k hm), unravelIx]

theorem unravelIx_mem {s : List ℕ} {k : ℕ} (hk : k < s.prod) : unravelIx s k ∈ idx s := by
  rw [idx, List.mem_toFinset]
  exact List.mem_of_getElem? (getElem?_indices hk)

theorem ravelIx_lt {s i : List ℕ} (h : i ∈ idx s) : ravelIx s i < s.prod := by
  have h := mem_idx.mp h
  induction h with
  | nil => simp [ravelIx]
  | @cons i n j s h1 _ ih =>
    have := ih (mem_idx.mpr ‹_›)
    simp only [ravelIx, List.prod_cons]
    calc i * s.prod + ravelIx s j < i * s.prod + s.prod := by omega
      _ = (i + 1) * s.prod := by ring
      _ ≤ n * s.prod := Nat.mul_le_mul_right _ h1

/-- Stepping along the last axis. -/
theorem unravelIx_next {s : List ℕ} {k a u n : ℕ} (hk : k < s.prod) (ha : a + 1 = s.length)
    (hs : s[a]? = some n) (hu : (unravelIx s k)[a]? = some u) (hn : u + 1 < n) :
    k + 1 < s.prod ∧ unravelIx s (k + 1) = (unravelIx s k).set a (u + 1) := by
  induction s generalizing k a with
  | nil => simp at hs
  | cons m s ih =>
    rcases s with _ | ⟨m', s⟩
    · simp only [List.length_cons, List.length_nil, Nat.zero_add, Nat.add_eq_right] at ha
      subst ha
      simp only [List.getElem?_cons_zero, Option.some.injEq] at hs
      subst hs
      simp only [unravelIx, List.prod_nil, Nat.div_one, List.getElem?_cons_zero, Option.some.injEq] at hu
      subst hu
      simp [unravelIx, hn]
    · obtain ⟨a, rfl⟩ : ∃ b, a = b + 1 := ⟨a - 1, by simp at ha; omega⟩
      rw [List.prod_cons] at hk
      set P := (m' :: s).prod with hP
      have hm : 0 < P := by
        rcases Nat.eq_zero_or_pos P with h | h
        · rw [h] at hk; simp at hk
        · exact h
      have hu' : (unravelIx (m' :: s) (k % P))[a]? = some u := by
        have : unravelIx (m :: m' :: s) k = k / P :: unravelIx (m' :: s) (k % P) := rfl
        rw [this] at hu; simpa using hu
      obtain ⟨h1, h2⟩ := ih (Nat.mod_lt k hm) (by simpa using ha) (by simpa using hs) hu'
      have hq : k / P < m := (Nat.div_lt_iff_lt_mul hm).mpr hk
      have hkeq := Nat.div_add_mod k P
      have hdiv : (k + 1) / P = k / P := by
        apply Nat.div_eq_of_lt_le
        · calc k / P * P = P * (k / P) := by ring
            _ ≤ k + 1 := by omega
        · calc k + 1 < P * (k / P) + P := by omega
            _ = (k / P + 1) * P := by ring
      have hmod : (k + 1) % P = k % P + 1 := by
        have := Nat.div_add_mod (k + 1) P
        rw [hdiv] at this
        omega
      refine ⟨?_, ?_⟩
      · rw [List.prod_cons, ← hP]
        calc k + 1 < P * (k / P) + P := by omega
          _ = (k / P + 1) * P := by ring
          _ ≤ m * P := Nat.mul_le_mul_right _ hq
      · show (k + 1) / P :: unravelIx (m' :: s) ((k + 1) % P) = (k / P :: unravelIx (m' :: s) (k % P)).set (a + 1) (u + 1)
        rw [hdiv, hmod, h2]
        rfl

theorem ravel_unravel {s : List ℕ} {k : ℕ} (hk : k < s.prod) : ravelIx s (unravelIx s k) = k := by
  induction s generalizing k with
  | nil => simp at hk; subst hk; rfl
  | cons n s ih =>
    rw [List.prod_cons] at hk
    have hm : 0 < s.prod := by
      rcases Nat.eq_zero_or_pos s.prod with h | h
      · rw [h] at hk; simp at hk
      · exact h
    simp only [unravelIx, ravelIx, ih (Nat.mod_lt k hm)]
    exact Nat.div_add_mod' k s.prod

/-- If a property is passed on to earlier entries, those with it come first. -/
theorem countP_prefix {α : Type _} (p : α → Bool) (l : List α) (hl : l.Pairwise (fun a b => p b → p a)) (i : ℕ)
    (x : α) (hx : l[i]? = some x) : (i < l.countP p ↔ p x = true) := by
  induction l generalizing i with
  | nil => simp at hx
  | cons y l ih =>
    rw [List.pairwise_cons] at hl
    by_cases hy : p y = true
    · rw [List.countP_cons_of_pos hy]
      rcases i with _ | i
      · simp only [List.getElem?_cons_zero, Option.some.injEq] at hx
        subst hx
        simp [hy]
      · rw [← ih hl.2 i (by simpa using hx)]
        omega
    · have h0 : (y :: l).countP p = 0 := by
        rw [List.countP_eq_zero]
        intro z hz
        rcases List.mem_cons.mp hz with rfl | hz
        · exact hy
        · exact fun h => hy (hl.1 z hz h)
      rw [h0]
      have : ¬ p x = true := by
        rcases i with _ | i
        · simp only [List.getElem?_cons_zero, Option.some.injEq] at hx
          subst hx; exact hy
        · have hz : x ∈ l := List.mem_of_getElem? (by simpa using hx)
          exact fun h => hy (hl.1 x hz h)
      simp [this]

/-- In a sorted list the entries up to a bound come first. -/
theorem countP_sorted {α : Type _} [LinearOrder α] (l : List α) (hl : l.Pairwise (· ≤ ·)) (q : α) (i : ℕ)
    (x : α) (hx : l[i]? = some x) :
    (i < l.countP (fun b => decide (b ≤ q)) ↔ x ≤ q) := by
  rw [countP_prefix _ l (hl.imp fun {a b} hab hb => by
    simp only [decide_eq_true_eq] at hb ⊢; exact hab.trans hb) i x hx, decide_eq_true_eq]

end Probayes
