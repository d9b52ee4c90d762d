/-
When are the axes computed by `conditionalise` a permutation?
-/
import Mathlib.Order.Interval.Finset.Nat
import Mathlib.Data.Finset.Max
import Mathlib.Tactic.Linarith

namespace Probayes

theorem interval_of_convex {B : Finset ℕ} {lo : ℕ} (hlo : lo ∈ B) (hmin : ∀ b ∈ B, lo ≤ b)
    (hconv : ∀ b ∈ B, ∀ x, lo ≤ x → x ≤ b → x ∈ B) : ∀ x, x ∈ B ↔ lo ≤ x ∧ x < lo + B.card := by
  obtain ⟨hi, h1, h2⟩ := B.exists_max_image id ⟨lo, hlo⟩
  have : B = Finset.Icc lo hi := by
    ext x
    rw [Finset.mem_Icc]
    exact ⟨fun hx => ⟨hmin x hx, h2 x hx⟩, fun hx => hconv hi h1 x hx.1 hx.2⟩
  have hle := hmin hi h1
  intro x
  rw [this, Finset.mem_Icc, Nat.card_Icc]
  omega

/-- The axes of conditioned arrays `B`, remaining marginal arrays `M` and
conditional arrays `C`, and the new axis `N a` of each. -/
structure AxisPlan (n : ℕ) (B M C : Finset ℕ) (N : ℕ → ℕ) (low : ℤ) (top klow : ℕ) : Prop where
  cover : ∀ a, a < n ↔ a ∈ B ∨ a ∈ M ∨ a ∈ C
  disjBM : ∀ a ∈ B, a ∉ M
  margBC : ∀ a ∈ B, ∀ c ∈ C, a < c
  margMC : ∀ a ∈ M, ∀ c ∈ C, a < c
  klow_mem : B.Nonempty → klow ∈ B
  klow_le : ∀ b ∈ B, klow ≤ b
  atB : ∀ b ∈ B, N b = b - klow + top + 1
  atM : ∀ a ∈ M, (N a : ℤ) = a - low
  atC : ∀ a ∈ C, (N a : ℤ) = a - B.card - low
  le_top : ∀ a, a ∈ M ∨ a ∈ C → N a ≤ top
  lowest : M.Nonempty ∨ C.Nonempty → ∃ a, (a ∈ M ∧ (a : ℤ) = low) ∨ (a ∈ C ∧ (a : ℤ) - B.card = low)
  highest : top = 0 ∨ ∃ a, (a ∈ M ∧ (a : ℤ) = low + top) ∨ (a ∈ C ∧ (a : ℤ) - B.card = low + top)

/-- All arrays that remain marginal come before the conditioned ones, or all
come after; in the latter case there is no conditional array, or as many arrays
are conditioned as not. -/
def AxisPlan.Good (n : ℕ) (B M C : Finset ℕ) : Prop :=
  B = ∅ ∨ ((M.Nonempty ∨ C.Nonempty) ∧
    ((∀ x ∈ M, ∀ b ∈ B, x < b) ∨ ((∀ x ∈ M, ∀ b ∈ B, b < x) ∧ (C = ∅ ∨ 2 * B.card = n))))

section
variable {n : ℕ} {B M C : Finset ℕ} {N : ℕ → ℕ} {low : ℤ} {top klow : ℕ}

theorem AxisPlan.card (p : AxisPlan n B M C N low top klow) : B.card + (M ∪ C).card = n := by
  have hd : Disjoint B (M ∪ C) := by
    rw [Finset.disjoint_left]
    intro a ha hc
    rcases Finset.mem_union.mp hc with hc | hc
    · exact p.disjBM a ha hc
    · exact lt_irrefl _ (p.margBC a ha a hc)
  rw [← Finset.card_union_of_disjoint hd]
  have : B ∪ (M ∪ C) = Finset.range n := by
    ext a; simp only [Finset.mem_union, Finset.mem_range]; rw [p.cover]
  rw [this, Finset.card_range]

theorem AxisPlan.good_of_perm (p : AxisPlan n B M C N low top klow)
    (hinj : ∀ a < n, ∀ b < n, N a = N b → a = b) (hlt : ∀ a < n, N a < n) :
    AxisPlan.Good n B M C := by
  rcases Finset.eq_empty_or_nonempty B with hB | hB
  · exact Or.inl hB
  refine Or.inr ?_
  have hkl := p.klow_mem hB
  have hm : 0 < B.card := Finset.card_pos.mpr hB
  have hcard := p.card
  have hltB : ∀ b ∈ B, b < n := fun b hb => (p.cover b).mpr (Or.inl hb)
  have hltM : ∀ b ∈ M, b < n := fun b hb => (p.cover b).mpr (Or.inr (Or.inl hb))
  have hltC : ∀ b ∈ C, b < n := fun b hb => (p.cover b).mpr (Or.inr (Or.inr hb))
  have hR : M.Nonempty ∨ C.Nonempty := by
    by_contra hc
    rw [not_or, Finset.not_nonempty_iff_eq_empty, Finset.not_nonempty_iff_eq_empty] at hc
    rw [hc.1, hc.2] at hcard
    simp only [Finset.union_empty, Finset.card_empty] at hcard
    have h0 : ∀ a, a < n → a ∈ B := by
      intro a ha
      have := (p.cover a).mp ha
      rw [hc.1, hc.2] at this
      simpa using this
    have hz := p.klow_le 0 (h0 0 (by omega))
    have := p.atB (n - 1) (h0 (n - 1) (by omega))
    have := hlt (n - 1) (by omega)
    omega
  -- the remaining axes fill `[0, top]`
  have htop : (M ∪ C).card ≤ top + 1 := by
    have : (M ∪ C).card ≤ (Finset.range (top + 1)).card := by
      apply Finset.card_le_card_of_injOn N
      · intro a ha
        simp only [Finset.coe_range, Set.mem_Iio]
        exact Nat.lt_succ_of_le (p.le_top a (Finset.mem_union.mp ha))
      · intro a ha b hb hab
        have hx : ∀ a, a ∈ (↑(M ∪ C) : Set ℕ) → a < n := by
          intro a ha
          rcases Finset.mem_union.mp ha with ha | ha
          · exact hltM a ha
          · exact hltC a ha
        exact hinj a (hx a ha) b (hx b hb) hab
    simpa using this
  have hBint : ∀ x, x ∈ B ↔ klow ≤ x ∧ x < klow + B.card := by
    have hsub : B ⊆ Finset.Ico klow (klow + B.card) := by
      intro b hb
      rw [Finset.mem_Ico]
      have h1 := p.atB b hb
      have h2 := hlt b (hltB b hb)
      have h3 := p.klow_le b hb
      omega
    have := Finset.eq_of_subset_of_card_le hsub (by rw [Nat.card_Ico]; omega)
    intro x
    conv_lhs => rw [this]
    exact Finset.mem_Ico
  have hlast : klow + B.card - 1 ∈ B := (hBint _).mpr (by omega)
  have htop' : top + 1 = n - B.card := by
    have h1 := p.atB _ hlast
    have h2 := hlt _ (hltB _ hlast)
    omega
  have hsurj : ∀ v, v < n - B.card → ∃ a, (a ∈ M ∨ a ∈ C) ∧ N a = v := by
    have himg : (M ∪ C).image N = Finset.range (n - B.card) := by
      apply Finset.eq_of_subset_of_card_le
      · intro v hv
        obtain ⟨a, ha, rfl⟩ := Finset.mem_image.mp hv
        rw [Finset.mem_range]
        have := p.le_top a (Finset.mem_union.mp ha)
        omega
      · rw [Finset.card_range, Finset.card_image_of_injOn]
        · omega
        · intro a ha b hb hab
          have hx : ∀ a, a ∈ (↑(M ∪ C) : Set ℕ) → a < n := by
            intro a ha
            rcases Finset.mem_union.mp ha with ha | ha
            · exact hltM a ha
            · exact hltC a ha
          exact hinj a (hx a ha) b (hx b hb) hab
    intro v hv
    have : v ∈ (M ∪ C).image N := by rw [himg]; exact Finset.mem_range.mpr hv
    obtain ⟨a, ha, hav⟩ := Finset.mem_image.mp this
    exact ⟨a, Finset.mem_union.mp ha, hav⟩
  have hCB : ∀ c ∈ C, klow + B.card ≤ c := by
    intro c hc
    have := p.margBC _ hlast c hc
    omega
  refine ⟨hR, ?_⟩
  by_cases hfirst : ∀ x ∈ M, ∀ b ∈ B, x < b
  · exact Or.inl hfirst
  right
  push Not at hfirst
  obtain ⟨x0, hx0, b0, hb0, hxb⟩ := hfirst
  have hx0' : klow + B.card ≤ x0 := by
    have h1 := (hBint b0).mp hb0
    have h2 : x0 ∉ B := fun hc => p.disjBM x0 hc hx0
    rw [hBint] at h2
    omega
  have hx0n := hltM x0 hx0
  obtain ⟨al, hal⟩ := p.lowest hR
  have hMabove : ∀ x ∈ M, klow + B.card ≤ x := by
    intro x hx
    by_contra hc
    have hxB : x ∉ B := fun hc => p.disjBM x hc hx
    rw [hBint] at hxB
    have hxk : x < klow := by omega
    have h0 : 0 ∈ M := by
      rcases (p.cover 0).mp (by omega) with h | h | h
      · have := p.klow_le 0 h; omega
      · exact h
      · have := p.margMC x hx 0 h; omega
    have hz := p.atM 0 h0
    have hlow : low = 0 := by
      rcases hal with ⟨h1, h2⟩ | ⟨h1, h2⟩
      · omega
      · have := hCB al h1; omega
    obtain ⟨a, ha, hav⟩ := hsurj klow (by omega)
    rcases ha with ha | ha
    · have h1 := p.atM a ha
      have h2 : a = klow := by omega
      subst h2
      exact p.disjBM a hkl ha
    · have h1 := p.atC a ha
      have h2 := p.margMC x0 hx0 a ha
      omega
  refine ⟨fun x hx b hb => by have := hMabove x hx; have := (hBint b).mp hb; omega, ?_⟩
  rcases Finset.eq_empty_or_nonempty C with hC | hC
  · exact Or.inl hC
  right
  have hk0 : klow = 0 := by
    rcases (p.cover 0).mp (by omega) with h | h | h
    · have := p.klow_le 0 h; omega
    · have := hMabove 0 h; omega
    · have := p.margMC x0 hx0 0 h; omega
  subst hk0
  obtain ⟨c, hc, hcmin⟩ := C.exists_min_image id hC
  have hcx := p.margMC x0 hx0 c hc
  have hcn := hltC c hc
  have hMint : ∀ a, B.card ≤ a → a < c → a ∈ M := by
    intro a h1 h2
    rcases (p.cover a).mp (by omega) with h | h | h
    · have := (hBint a).mp h; omega
    · exact h
    · have := hcmin a h; simp at this; omega
  have hCint : ∀ a, c ≤ a → a < n → a ∈ C := by
    intro a h1 h2
    rcases (p.cover a).mp (by omega) with h | h | h
    · have := p.margBC a h c hc; omega
    · have := p.margMC a h c hc; omega
    · exact h
  have hc1 : c - 1 ∈ M := hMint _ (by omega) (by omega)
  have hNc1 := p.atM _ hc1
  have hA : n ≤ c - 1 + B.card := by
    by_contra hcon
    have h1 : c - 1 + B.card ∈ C := hCint _ (by omega) (by omega)
    have h2 := p.atC _ h1
    have := hinj (c - 1) (by omega) (c - 1 + B.card) (by omega) (by omega)
    omega
  have hn1 : n - 1 ∈ C := hCint _ (by omega) (by omega)
  have hB2 : n ≤ 2 * B.card := by
    by_contra hcon
    have h1 : n - 1 - B.card ∈ M := hMint _ (by omega) (by omega)
    have h2 := p.atC _ hn1
    have h3 := p.atM _ h1
    have := hinj (n - 1) (by omega) (n - 1 - B.card) (by omega) (by omega)
    omega
  have hNc := p.atC c hc
  have hlow : low = c - B.card := by
    rcases hal with ⟨h1, h2⟩ | ⟨h1, h2⟩
    · have := hMabove al h1; omega
    · have := hcmin al h1; simp at this; omega
  have := p.le_top (c - 1) (Or.inl hc1)
  omega

theorem AxisPlan.perm_of_good (p : AxisPlan n B M C N low top klow) (hg : AxisPlan.Good n B M C) :
    (∀ a < n, ∀ b < n, N a = N b → a = b) ∧ ∀ a < n, N a < n := by
  have hcard := p.card
  have hltB : ∀ b ∈ B, b < n := fun b hb => (p.cover b).mpr (Or.inl hb)
  have hltM : ∀ b ∈ M, b < n := fun b hb => (p.cover b).mpr (Or.inr (Or.inl hb))
  have hltC : ∀ b ∈ C, b < n := fun b hb => (p.cover b).mpr (Or.inr (Or.inr hb))
  rcases Finset.eq_empty_or_nonempty B with hB | hB
  · -- nothing moves
    subst hB
    have hN : ∀ a < n, (N a : ℤ) = a - low := by
      intro a ha
      rcases (p.cover a).mp ha with h | h | h
      · simp at h
      · exact p.atM a h
      · have := p.atC a h; simp at this; omega
    have hlow : ∀ a < n, low = 0 := by
      intro a ha
      have h0 := hN 0 (by omega)
      have hR : M.Nonempty ∨ C.Nonempty := by
        rcases (p.cover a).mp ha with h | h | h
        · simp at h
        · exact Or.inl ⟨a, h⟩
        · exact Or.inr ⟨a, h⟩
      obtain ⟨al, hal⟩ := p.lowest hR
      rcases hal with ⟨h1, h2⟩ | ⟨h1, h2⟩
      · omega
      · simp at h2; omega
    refine ⟨?_, ?_⟩
    · intro a ha b hb hab
      have := hN a ha; have := hN b hb; omega
    · intro a ha
      have := hN a ha; have := hlow a ha; omega
  · rcases hg with hg | ⟨hR, hg⟩
    · exact absurd hg hB.ne_empty
    have hkl := p.klow_mem hB
    have hkln := hltB _ hkl
    have hm : 0 < B.card := Finset.card_pos.mpr hB
    obtain ⟨al, hal⟩ := p.lowest hR
    have hconv : ∀ b ∈ B, ∀ x, klow ≤ x → x ≤ b → x ∈ B := by
      intro b hb x h1 h2
      have hbn := hltB b hb
      rcases (p.cover x).mp (by omega) with h | h | h
      · exact h
      · exfalso
        rcases hg with hg | ⟨hg, _⟩
        · have := hg x h klow hkl; omega
        · have := hg x h b hb; omega
      · have := p.margBC b hb x h; omega
    have hBint := interval_of_convex hkl p.klow_le hconv
    have hCB : ∀ c ∈ C, klow + B.card ≤ c := by
      intro c hc
      have := p.margBC (klow + B.card - 1) ((hBint _).mpr (by omega)) c hc
      omega
    have hRcard : B.card < n := by
      have : 0 < (M ∪ C).card := by
        rw [Finset.card_pos]
        rcases hR with ⟨a, ha⟩ | ⟨a, ha⟩
        · exact ⟨a, Finset.mem_union_left _ ha⟩
        · exact ⟨a, Finset.mem_union_right _ ha⟩
      omega
    by_cases hfirst : ∀ x ∈ M, ∀ b ∈ B, x < b
    · -- conditioned arrays last
      have hMint : ∀ a, a < klow ↔ a ∈ M := by
        intro a
        constructor
        · intro ha
          rcases (p.cover a).mp (by omega) with h | h | h
          · have := p.klow_le a h; omega
          · exact h
          · have := hCB a h; omega
        · intro ha; exact hfirst a ha klow hkl
      have hCint : ∀ a, klow + B.card ≤ a → a < n → a ∈ C := by
        intro a h1 h2
        rcases (p.cover a).mp h2 with h | h | h
        · have := (hBint a).mp h; omega
        · have := (hMint a).mpr h; omega
        · exact h
      have hlast : klow + B.card ≤ n := by
        have := hltB (klow + B.card - 1) ((hBint _).mpr (by omega)); omega
      have hlow0 : 0 ≤ low := by
        rcases hal with ⟨h1, h2⟩ | ⟨h1, h2⟩
        · omega
        · have := hCB al h1; omega
      have hlow : low = 0 := by
        by_cases hk : 0 < klow
        · have := p.atM 0 ((hMint 0).mp hk); omega
        · have := p.atC B.card (hCint _ (by omega) (by omega)); omega
      have htop : top + 1 = n - B.card := by
        have hge : n - B.card ≤ top + 1 := by
          by_cases hk : klow + B.card < n
          · have h1 : n - 1 ∈ C := hCint _ (by omega) (by omega)
            have h2 := p.atC _ h1
            have h3 := p.le_top _ (Or.inr h1)
            omega
          · have h1 : klow - 1 ∈ M := (hMint _).mp (by omega)
            have h2 := p.atM _ h1
            have h3 := p.le_top _ (Or.inl h1)
            omega
        rcases p.highest with h | ⟨a, ⟨h1, h2⟩ | ⟨h1, h2⟩⟩
        · omega
        · have := (hMint a).mpr h1; omega
        · have := hltC a h1; omega
      have hval : ∀ a < n, (a < klow ∧ N a = a) ∨ (klow ≤ a ∧ a < klow + B.card ∧ N a = a - klow + (n - B.card)) ∨
          (klow + B.card ≤ a ∧ N a = a - B.card) := by
        intro a ha
        rcases (p.cover a).mp ha with h | h | h
        · have := p.atB a h; have := (hBint a).mp h; omega
        · have := p.atM a h; have := (hMint a).mpr h; omega
        · have := p.atC a h; have := hCB a h; omega
      refine ⟨?_, ?_⟩
      · intro a ha b hb hab
        have := hval a ha; have := hval b hb; omega
      · intro a ha
        have := hval a ha; omega
    · -- conditioned arrays first
      have hg' : (∀ x ∈ M, ∀ b ∈ B, b < x) ∧ (C = ∅ ∨ 2 * B.card = n) := by
        rcases hg with hg | hg
        · exact absurd hg hfirst
        · exact hg
      push Not at hfirst
      obtain ⟨x0, hx0, -⟩ := hfirst
      have hMB : ∀ x ∈ M, klow + B.card ≤ x := by
        intro x hx
        have := hg'.1 x hx (klow + B.card - 1) ((hBint _).mpr (by omega))
        omega
      have hx0n := hltM x0 hx0
      have hk0 : klow = 0 := by
        rcases (p.cover 0).mp (by omega) with h | h | h
        · have := p.klow_le 0 h; omega
        · have := hMB 0 h; omega
        · have := hCB 0 h; omega
      subst hk0
      rcases Finset.eq_empty_or_nonempty C with hC | hC
      · subst hC
        have hMint : ∀ a, B.card ≤ a → a < n → a ∈ M := by
          intro a h1 h2
          rcases (p.cover a).mp h2 with h | h | h
          · have := (hBint a).mp h; omega
          · exact h
          · simp at h
        have hlow : low = B.card := by
          have h1 := p.atM B.card (hMint _ (by omega) (by omega))
          rcases hal with ⟨h1, h2⟩ | ⟨h1, h2⟩
          · have := hMB al h1; omega
          · simp at h1
        have htop : top + 1 = n - B.card := by
          have h1 := hMint (n - 1) (by omega) (by omega)
          have h2 := p.atM _ h1
          have h3 := p.le_top _ (Or.inl h1)
          rcases p.highest with h | ⟨a, ⟨h4, h5⟩ | ⟨h4, h5⟩⟩
          · omega
          · have := hltM a h4; omega
          · simp at h4
        have hval : ∀ a < n, (a < B.card ∧ N a = a + (n - B.card)) ∨ (B.card ≤ a ∧ N a = a - B.card) := by
          intro a ha
          rcases (p.cover a).mp ha with h | h | h
          · have := p.atB a h; have := (hBint a).mp h; omega
          · have := p.atM a h; have := hMB a h; omega
          · simp at h
        refine ⟨?_, ?_⟩
        · intro a ha b hb hab
          have := hval a ha; have := hval b hb; omega
        · intro a ha
          have := hval a ha; omega
      · have h2m : 2 * B.card = n := by
          rcases hg'.2 with h | h
          · exact absurd h hC.ne_empty
          · exact h
        obtain ⟨c, hc, hcmin⟩ := C.exists_min_image id hC
        simp only [id] at hcmin
        have hcx := p.margMC x0 hx0 c hc
        have hcn := hltC c hc
        have hx0' := hMB x0 hx0
        have hMint : ∀ a, B.card ≤ a → a < c → a ∈ M := by
          intro a h1 h2
          rcases (p.cover a).mp (by omega) with h | h | h
          · have := (hBint a).mp h; omega
          · exact h
          · have := hcmin a h; omega
        have hlow : low = c - B.card := by
          have h1 := p.atC c hc
          rcases hal with ⟨h1, h2⟩ | ⟨h1, h2⟩
          · have := hMB al h1; omega
          · have := hcmin al h1; omega
        have htop : top + 1 = B.card := by
          have h1 := hMint (c - 1) (by omega) (by omega)
          have h2 := p.atM _ h1
          have h3 := p.le_top _ (Or.inl h1)
          rcases p.highest with h | ⟨a, ⟨h4, h5⟩ | ⟨h4, h5⟩⟩
          · omega
          · have := p.margMC a h4 c hc; omega
          · have := hltC a h4; omega
        have hval : ∀ a < n, (a < B.card ∧ N a = a + B.card) ∨
            (B.card ≤ a ∧ a < c ∧ N a + c = a + B.card) ∨ (c ≤ a ∧ N a + c = a) := by
          intro a ha
          rcases (p.cover a).mp ha with h | h | h
          · have := p.atB a h; have := (hBint a).mp h; omega
          · have := p.atM a h; have := hMB a h; have := p.margMC a h c hc; omega
          · have := p.atC a h; have := hcmin a h; omega
        refine ⟨?_, ?_⟩
        · intro a ha b hb hab
          have := hval a ha; have := hval b hb; omega
        · intro a ha
          have := hval a ha; omega

end

end Probayes
