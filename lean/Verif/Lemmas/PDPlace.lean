/-
Lemmas on bringing the probabilities of a factor to the axes of a product:
`np.expand_dims`, `np.moveaxis` and `reshape` permute the axes as intended.
-/
import Verif.Model.PDProduct
import Verif.Lemmas.Broadcast

namespace Probayes

theorem prod_dropAxes (s : List ℕ) : ∀ (p : ℕ → Bool),
    (∀ n m, p n = true → s[n]? = some m → m = 1) → (dropAxes p s).prod = s.prod := by
  induction s with
  | nil => intro p _; rfl
  | cons x s ih =>
    intro p hp
    have := ih (fun m => p (m + 1)) (fun a b hab hb => hp (a + 1) b hab (by simpa using hb))
    by_cases h0 : p 0
    · have hx : x = 1 := hp 0 x h0 (by simp)
      simp [dropAxes, h0, this, hx]
    · simp [dropAxes, h0, this]

/-- Reshaping only to insert axes of size one. -/
theorem reshape_squeeze (A : Arr) (T : List ℕ) (p : ℕ → Bool)
    (hp : ∀ n m, p n = true → T[n]? = some m → m = 1) (hs : dropAxes p T = A.shape) :
    ∃ q, reshape T A = .ok q ∧ q.shape = T ∧ ∀ j ∈ idx T, q.get j = A.get (dropAxes p j) := by
  refine ⟨⟨T, fun j => A.get (unravelIx A.shape (ravelIx T j))⟩, ?_, rfl, ?_⟩
  · rw [reshape, if_pos (by rw [← hs, prod_dropAxes T p hp])]
  · intro j hj
    show A.get _ = _
    rw [← (ravel_squeeze hj p hp).1, ← hs, unravel_ravel (dropAxes_mem_idx p hj)]

theorem dropAxes_ge {α : Type _} (l : List α) : ∀ m, dropAxes (fun b => decide (m ≤ b)) l = l.take m := by
  induction l with
  | nil => intro m; simp [dropAxes]
  | cons x l ih =>
    intro m
    rcases m with _ | m
    · have := ih 0
      simp only [Nat.zero_le, decide_true, List.take_zero] at this ⊢
      simp [dropAxes, this]
    · have := ih m
      simp only [dropAxes, List.take_succ_cons, Nat.add_le_add_iff_right, this]
      simp

theorem dropAxes_all {α : Type _} (l : List α) : dropAxes (fun _ => true) l = [] := by
  induction l with
  | nil => rfl
  | cons x l ih => simpa [dropAxes] using ih

theorem dropAxes_one {α : Type _} (l : List α) : ∀ (n : ℕ) (x : α), l[n]? = some x →
    dropAxes (fun b => decide (b ≠ n)) l = [x] := by
  induction l with
  | nil => intro n x h; simp at h
  | cons y l ih =>
    intro n x h
    rcases n with _ | n
    · simp at h
      subst h
      have := dropAxes_all l
      simp only [dropAxes]
      simp [this]
    · have := ih n x (by simpa using h)
      simp only [ne_eq, decide_not] at this
      simp only [dropAxes, ne_eq, decide_not, Nat.add_right_cancel_iff, this]
      simp

theorem moveOrder_spec (src dst : List ℕ) (hlen : src.length = dst.length) :
    ∀ n k rest, rest.length = ((List.range' k n).filter (· ∉ dst)).length →
      (moveOrder src dst n k rest).length = n ∧
      (∀ c, c < n → k + c ∈ dst →
        (moveOrder src dst n k rest)[c]? = src[dst.idxOf (k + c)]?) ∧
      (∀ c, c < n → k + c ∉ dst → ∃ r ∈ rest, (moveOrder src dst n k rest)[c]? = some r) := by
  intro n
  induction n with
  | zero => intro k rest _; simp [moveOrder]
  | succ n ih =>
    intro k rest hr
    rw [List.range'_succ] at hr
    by_cases hk : k ∈ dst
    · have hr' : rest.length = ((List.range' (k + 1) n).filter (· ∉ dst)).length := by
        rw [hr, List.filter_cons, if_neg (by simpa using hk)]
      obtain ⟨h1, h2, h3⟩ := ih (k + 1) rest hr'
      have he : moveOrder src dst (n + 1) k rest =
          src.getD (dst.idxOf k) 0 :: moveOrder src dst n (k + 1) rest := by
        simp [moveOrder, hk]
      rw [he]
      refine ⟨by simp [h1], ?_, ?_⟩
      · intro c hc hcd
        rcases c with _ | c
        · have : dst.idxOf k < src.length := by rw [hlen]; exact List.idxOf_lt_length_iff.mpr hk
          simp [List.getD_eq_getElem?_getD, this]
        · have := h2 c (by omega) (by rwa [show k + 1 + c = k + (c + 1) by omega])
          rw [show k + 1 + c = k + (c + 1) by omega] at this
          simpa using this
      · intro c hc hcd
        rcases c with _ | c
        · exact absurd hk hcd
        · have := h3 c (by omega) (by rwa [show k + 1 + c = k + (c + 1) by omega])
          simpa using this
    · rw [List.filter_cons, if_pos (by simpa using hk)] at hr
      rcases rest with _ | ⟨r, rest⟩
      · simp at hr
      · obtain ⟨h1, h2, h3⟩ := ih (k + 1) rest (by simpa using hr)
        have he : moveOrder src dst (n + 1) k (r :: rest) =
            r :: moveOrder src dst n (k + 1) rest := by
          simp [moveOrder, hk]
        rw [he]
        refine ⟨by simp [h1], ?_, ?_⟩
        · intro c hc hcd
          rcases c with _ | c
          · exact absurd hcd hk
          · have := h2 c (by omega) (by rwa [show k + 1 + c = k + (c + 1) by omega])
            rw [show k + 1 + c = k + (c + 1) by omega] at this
            simpa using this
        · intro c hc hcd
          rcases c with _ | c
          · exact ⟨r, by simp, by simp⟩
          · obtain ⟨r', hr', h⟩ := h3 c (by omega) (by rwa [show k + 1 + c = k + (c + 1) by omega])
            exact ⟨r', by simp [hr'], by simpa using h⟩

theorem length_range_notMem (s : List ℕ) (M : ℕ) (hn : s.Nodup) (h : ∀ a ∈ s, a < M) :
    ((List.range M).filter (· ∉ s)).length = M - s.length := by
  have hp : ((List.range M).filter (· ∈ s)).Perm s := by
    rw [List.perm_ext_iff_of_nodup (List.nodup_range.filter _) hn]
    intro a
    simp only [List.mem_filter, List.mem_range, decide_eq_true_eq]
    exact ⟨fun h => h.2, fun ha => ⟨h a ha, ha⟩⟩
  have := List.length_eq_length_filter_add (l := List.range M) (fun a => decide (a ∈ s))
  rw [hp.length_eq, List.length_range] at this
  have e : ((List.range M).filter (fun x => !decide (x ∈ s))) = (List.range M).filter (· ∉ s) := by
    apply List.filter_congr; intro x _; simp
  rw [e] at this
  omega

theorem placedShape_spec (S new : List ℕ) :
    (placedShape S new).length = S.length ∧
    ∀ b < S.length, (placedShape S new)[b]? = if b ∈ new then S[b]? else some 1 := by
  have key : ∀ (new s : List ℕ), s.length = S.length →
      (new.foldl (fun s d => s.set d (S.getD d 1)) s).length = S.length ∧
      ∀ b < S.length, (new.foldl (fun s d => s.set d (S.getD d 1)) s)[b]? =
        if b ∈ new then S[b]? else s[b]? := by
    intro new
    induction new with
    | nil => intro s hs; simp [hs]
    | cons d new ih =>
      intro s hs
      obtain ⟨h1, h2⟩ := ih (s.set d (S.getD d 1)) (by simpa using hs)
      refine ⟨by simpa using h1, ?_⟩
      intro b hb
      rw [List.foldl_cons, h2 b hb]
      by_cases hbn : b ∈ new
      · simp [hbn]
      · by_cases hbd : b = d
        · subst hbd
          simp [hbn, hs, hb, List.getD_eq_getElem?_getD]
        · simp [hbn, hbd, List.getElem?_set, Ne.symm hbd]
  obtain ⟨h1, h2⟩ := key new (List.replicate S.length 1) (by simp)
  refine ⟨h1, fun b hb => ?_⟩
  rw [placedShape, h2 b hb]
  simp [hb]

/-- The axis change of one factor. -/
noncomputable def moveTo (S : List ℕ) (P : Dict ℕ ℕ) (A : Arr) : Py Arr := do
  let prob ← if 1 < (Dict.keys P).length ∧ Dict.keys P ≠ Dict.vals P then
      moveaxis (expandTo ((Dict.vals P).foldl max 0 + 1) A) (Dict.keys P) (Dict.vals P)
    else .ok A
  reshape (placedShape S (Dict.vals P)) prob

theorem foldl_max_ge (l : List ℕ) : ∀ m, m ≤ l.foldl max m ∧ ∀ x ∈ l, x ≤ l.foldl max m := by
  induction l with
  | nil => simp
  | cons y l ih =>
    intro m
    obtain ⟨h1, h2⟩ := ih (max m y)
    refine ⟨by simp only [List.foldl_cons]; omega, ?_⟩
    intro x hx
    simp only [List.foldl_cons]
    rcases List.mem_cons.mp hx with rfl | hx
    · omega
    · exact h2 x hx

theorem foldl_max_lt (l : List ℕ) (b : ℕ) (h : ∀ x ∈ l, x < b) :
    ∀ m < b, l.foldl max m < b := by
  induction l with
  | nil => intro m hm; simpa using hm
  | cons y l ih =>
    intro m hm
    simp only [List.foldl_cons]
    exact ih (fun x hx => h x (by simp [hx])) _ (by have := h y (by simp); omega)

/-- The hypotheses on the axis change of an array of shape `s` to the axes of
shape `S`: all axes are mapped, to distinct axes of the same size. -/
structure AxisChange (S s : List ℕ) (P : Dict ℕ ℕ) : Prop where
  pos : s ≠ []
  old : (Dict.keys P).Nodup
  cover : ∀ a, a ∈ Dict.keys P ↔ a < s.length
  new : (Dict.vals P).Nodup
  size : ∀ ab ∈ P, ∃ n, S[ab.2]? = some n ∧ s[ab.1]? = some n

theorem AxisChange.length {S s : List ℕ} {P : Dict ℕ ℕ} (h : AxisChange S s P) :
    P.length = s.length := by
  have hp : (Dict.keys P).Perm (List.range s.length) := by
    rw [List.perm_ext_iff_of_nodup h.old List.nodup_range]
    intro a; rw [h.cover, List.mem_range]
  have := hp.length_eq
  simpa [Dict.keys] using this

theorem AxisChange.lt {S s : List ℕ} {P : Dict ℕ ℕ} (h : AxisChange S s P) {b : ℕ}
    (hb : b ∈ Dict.vals P) : b < S.length := by
  obtain ⟨ab, hab, rfl⟩ := List.mem_map.mp hb
  obtain ⟨n, hn, _⟩ := h.size ab hab
  by_contra hc
  rw [List.getElem?_eq_none (by omega)] at hn
  simp at hn

theorem moveTo_ok {S : List ℕ} {P : Dict ℕ ℕ} {A : Arr} (h : AxisChange S A.shape P) :
    ∃ q, moveTo S P A = .ok q ∧ q.shape = placedShape S (Dict.vals P) ∧
      ∀ j ∈ idx (placedShape S (Dict.vals P)), ∀ i : List ℕ, i.length = A.shape.length →
        (∀ ab ∈ P, i[ab.1]? = j[ab.2]?) → q.get j = A.get i := by
  obtain ⟨hTl, hT⟩ := placedShape_spec S (Dict.vals P)
  set T := placedShape S (Dict.vals P) with hTdef
  have hlen := h.length
  have hones : ∀ n m, n ∉ Dict.vals P → T[n]? = some m → m = 1 := by
    intro n m hn hm
    have hlt : n < S.length := by
      by_contra hc
      rw [List.getElem?_eq_none (by omega)] at hm; simp at hm
    rw [hT n hlt, if_neg hn] at hm
    simpa using hm.symm
  have hsize : ∀ ab ∈ P, T[ab.2]? = A.shape[ab.1]? := by
    intro ab hab
    have hm : ab.2 ∈ Dict.vals P := List.mem_map_of_mem hab
    obtain ⟨n, h1, h2⟩ := h.size ab hab
    rw [hT _ (h.lt hm), if_pos hm, h1, h2]
  by_cases hc : 1 < (Dict.keys P).length ∧ Dict.keys P ≠ Dict.vals P
  · -- with moved axes
    set m := A.shape.length with hm
    set mx := (Dict.vals P).foldl max 0 + 1 with hmx
    set E := expandTo mx A with hE
    have hEl : E.shape.length = max m mx := by
      simp only [hE, expandTo, List.length_append, List.length_replicate, ← hm]; omega
    set M := max m mx with hM
    have hkl : (Dict.keys P).length = m := by simpa [Dict.keys] using hlen
    have hvl : (Dict.vals P).length = m := by simpa [Dict.vals] using hlen
    have hkM : ∀ a ∈ Dict.keys P, a < M := fun a ha => by
      have := (h.cover a).mp ha; omega
    have hvM : ∀ b ∈ Dict.vals P, b < M := fun b hb => by
      have := (foldl_max_ge (Dict.vals P) 0).2 b hb; omega
    have hMS : M ≤ S.length := by
      have h1 : m ≤ S.length := by
        have hsub : (Dict.vals P).length ≤ (List.range S.length).length :=
          (h.new.subperm (fun b hb => List.mem_range.mpr (h.lt hb))).length_le
        simpa [hvl] using hsub
      have h2 : mx ≤ S.length := by
        have hpos : 0 < S.length := by
          have := h.pos
          have : 0 < m := List.length_pos_of_ne_nil this
          omega
        have := foldl_max_lt (Dict.vals P) S.length (fun b hb => h.lt hb) 0 hpos
        omega
      omega
    set order := moveOrder (Dict.keys P) (Dict.vals P) M 0
      ((List.range M).filter (· ∉ Dict.keys P)) with ho
    have hmv : moveaxis E (Dict.keys P) (Dict.vals P) = .ok (transpose order E) := by
      unfold moveaxis
      simp only [hEl]
      rw [if_pos]
      simp only [Bool.and_eq_true, List.all_eq_true, decide_eq_true_eq, beq_iff_eq]
      exact ⟨⟨⟨⟨fun a ha => hkM a ha, fun b hb => hvM b hb⟩, h.old⟩, h.new⟩, by rw [hkl, hvl]⟩
    obtain ⟨o1, o2, o3⟩ := moveOrder_spec (Dict.keys P) (Dict.vals P) (by rw [hkl, hvl]) M 0
      ((List.range M).filter (· ∉ Dict.keys P)) (by
        rw [length_range_notMem _ _ h.old hkM, ← List.range_eq_range',
          length_range_notMem _ _ h.new hvM, hkl, hvl])
    rw [← ho] at o1 o2 o3
    simp only [Nat.zero_add] at o2 o3
    -- the axis taken by a destination
    have hdst : ∀ ab ∈ P, order[ab.2]? = some ab.1 := by
      intro ab hab
      obtain ⟨n, hn⟩ := List.mem_iff_getElem?.mp hab
      have hb : (Dict.vals P)[n]? = some ab.2 := by simp [Dict.vals, hn]
      have ha : (Dict.keys P)[n]? = some ab.1 := by simp [Dict.keys, hn]
      have hbm : ab.2 ∈ Dict.vals P := List.mem_of_getElem? hb
      rw [o2 _ (hvM _ hbm) hbm]
      have : (Dict.vals P).idxOf ab.2 = n := by
        obtain ⟨hl, hbb⟩ := List.getElem?_eq_some_iff.mp hb
        rw [← hbb]; exact h.new.idxOf_getElem n hl
      rw [this, ha]
    have hidx : ∀ ab ∈ P, order.idxOf ab.1 = ab.2 := by
      intro ab hab
      have hmem : ab.1 ∈ order := List.mem_of_getElem? (hdst ab hab)
      have hlt := List.idxOf_lt_length_iff.mpr hmem
      have hget : order[order.idxOf ab.1]? = some ab.1 := by
        rw [List.getElem?_eq_getElem hlt, List.getElem_idxOf hlt]
      have hltM : order.idxOf ab.1 < M := by rw [← o1]; exact hlt
      by_cases hd : order.idxOf ab.1 ∈ Dict.vals P
      · obtain ⟨cd, hcd, hcd2⟩ := List.mem_map.mp hd
        have := hdst cd hcd
        rw [hcd2, hget] at this
        simp only [Option.some.injEq] at this
        -- same key, so the same pair
        have : ab = cd := by
          have e1 := Dict.get?_of_mem h.old (show (ab.1, ab.2) ∈ P from hab)
          have e2 := Dict.get?_of_mem h.old (show (cd.1, cd.2) ∈ P from hcd)
          rw [this, e2] at e1
          exact Prod.ext this (by simpa using e1.symm)
        rw [← hcd2, this]
      · obtain ⟨r, hr, hr2⟩ := o3 _ hltM hd
        rw [hget] at hr2
        simp only [Option.some.injEq] at hr2
        rw [← hr2] at hr
        have hk : ab.1 ∈ Dict.keys P := List.mem_map_of_mem hab
        simp [hk] at hr
    have hshape : (transpose order E).shape = T.take M := by
      apply List.ext_getElem?
      intro b
      simp only [transpose, List.getElem?_map]
      by_cases hb : b < M
      · rw [List.getElem?_take_of_lt hb]
        by_cases hbd : b ∈ Dict.vals P
        · obtain ⟨ab, hab, rfl⟩ := List.mem_map.mp hbd
          rw [hdst ab hab, hsize ab hab]
          obtain ⟨n, _, hn⟩ := h.size ab hab
          have hlt : ab.1 < A.shape.length := (h.cover _).mp (List.mem_map_of_mem hab)
          simp only [Option.map_some, hE, expandTo]
          rw [List.getD_eq_getElem?_getD, List.getElem?_append_left hlt, hn]
          rfl
        · obtain ⟨r, hr, hr2⟩ := o3 b hb hbd
          rw [hr2, hT b (by omega), if_neg hbd]
          simp only [List.mem_filter, List.mem_range, decide_eq_true_eq] at hr
          have hrm : m ≤ r := by
            by_contra hc
            exact hr.2 ((h.cover r).mpr (by omega))
          simp only [Option.map_some, hE, expandTo]
          rw [List.getD_eq_getElem?_getD, List.getElem?_append_right hrm,
            List.getElem?_replicate, if_pos (by omega)]
          rfl
      · rw [List.getElem?_eq_none (by omega), List.getElem?_eq_none (by simp; omega)]
        rfl
    obtain ⟨q, hq1, hq2, hq3⟩ := reshape_squeeze (transpose order E) T (fun b => decide (M ≤ b))
      (by
        intro n k hn hk
        apply hones n k _ hk
        intro hc
        have := hvM n hc
        simp at hn; omega)
      (by rw [dropAxes_ge, hshape])
    refine ⟨q, ?_, hq2, ?_⟩
    · simp only [moveTo, if_pos hc, ← hmx, ← hE, hmv, ← hTdef, bind, Except.bind, hq1]
    · intro j hj i hi hij
      rw [hq3 j hj, dropAxes_ge]
      show A.get _ = _
      congr 1
      apply List.ext_getElem?
      intro a
      by_cases ha : a < m
      · rw [List.getElem?_take_of_lt ha, List.getElem?_map, hEl,
          List.getElem?_range (show a < M by omega), Option.map_some]
        obtain ⟨ab, hab, rfl⟩ := List.mem_map.mp ((h.cover a).mpr ha)
        rw [hidx ab hab, hij ab hab]
        have hb := hvM _ (show ab.2 ∈ Dict.vals P from List.mem_map_of_mem hab)
        rw [List.getD_eq_getElem?_getD, List.getElem?_take_of_lt hb]
        have hjl : ab.2 < j.length := by rw [length_of_mem_idx hj]; omega
        rw [List.getElem?_eq_getElem hjl]; rfl
      · rw [List.getElem?_eq_none (by simp; omega), List.getElem?_eq_none (by omega)]
  · -- without moved axes: one axis, or all in place
    have hmv : moveTo S P A = reshape T A := by
      simp only [moveTo, if_neg hc, bind, Except.bind]; rfl
    rw [hmv]
    have hm0 : 0 < A.shape.length := List.length_pos_of_ne_nil h.pos
    by_cases h1 : A.shape.length = 1
    · rw [h1] at hlen
      obtain ⟨⟨a, b⟩, rfl⟩ := List.length_eq_one_iff.mp hlen
      have ha : a = 0 := by
        have := (h.cover a).mp (by simp [Dict.keys])
        omega
      subst ha
      obtain ⟨x, hx⟩ := List.length_eq_one_iff.mp h1
      have hTb : T[b]? = some x := by
        rw [hsize (0, b) (by simp), hx]; rfl
      obtain ⟨q, hq1, hq2, hq3⟩ := reshape_squeeze A T (fun c => decide (c ≠ b))
        (by
          intro n k hn hk
          apply hones n k _ hk
          simpa [Dict.vals] using hn)
        (by rw [dropAxes_one T b x hTb, hx])
      refine ⟨q, hq1, hq2, ?_⟩
      intro j hj i hi hij
      have hbl : b < j.length := by
        rw [length_of_mem_idx hj, hTl]
        exact h.lt (by simp [Dict.vals])
      rw [hq3 j hj, dropAxes_one j b j[b] (List.getElem?_eq_getElem hbl)]
      congr 1
      have := hij (0, b) (by simp)
      rw [h1] at hi
      obtain ⟨y, rfl⟩ := List.length_eq_one_iff.mp hi
      rw [List.getElem?_eq_getElem hbl] at this
      simpa using this.symm
    · have hkl : (Dict.keys P).length = A.shape.length := by simpa [Dict.keys] using hlen
      have heq : Dict.keys P = Dict.vals P := by
        by_contra hne
        exact hc ⟨by omega, hne⟩
      have hdiag : ∀ ab ∈ P, ab.1 = ab.2 := by
        intro ab hab
        obtain ⟨n, hn⟩ := List.mem_iff_getElem?.mp hab
        have hb : (Dict.vals P)[n]? = some ab.2 := by simp [Dict.vals, hn]
        have ha : (Dict.keys P)[n]? = some ab.1 := by simp [Dict.keys, hn]
        rw [heq, hb] at ha
        simpa using ha.symm
      have hin : ∀ a < A.shape.length, (a, a) ∈ P := by
        intro a ha
        obtain ⟨ab, hab, rfl⟩ := List.mem_map.mp ((h.cover a).mpr ha)
        have := hdiag ab hab
        rwa [show ((ab.1, ab.1) : ℕ × ℕ) = ab from Prod.ext rfl this]
      have hdrop : ∀ l : List ℕ, dropAxes (fun b => decide (A.shape.length ≤ b)) l =
          l.take A.shape.length := fun l => dropAxes_ge l _
      have hle : A.shape.length ≤ S.length := by
        have := h.lt (b := A.shape.length - 1) (by
          rw [← heq, h.cover]; omega)
        omega
      obtain ⟨q, hq1, hq2, hq3⟩ := reshape_squeeze A T (fun b => decide (A.shape.length ≤ b))
        (by
          intro n k hn hk
          apply hones n k _ hk
          rw [← heq, h.cover]
          simpa using hn)
        (by
          rw [hdrop]
          apply List.ext_getElem?
          intro a
          by_cases ha : a < A.shape.length
          · rw [List.getElem?_take_of_lt ha, hsize (a, a) (hin a ha)]
          · rw [List.getElem?_eq_none (by simp; omega), List.getElem?_eq_none (by omega)])
      refine ⟨q, hq1, hq2, ?_⟩
      intro j hj i hi hij
      rw [hq3 j hj, hdrop]
      congr 1
      apply List.ext_getElem?
      intro a
      by_cases ha : a < A.shape.length
      · rw [List.getElem?_take_of_lt ha, hij (a, a) (hin a ha)]
      · rw [List.getElem?_eq_none (by simp; omega), List.getElem?_eq_none (by omega)]

end Probayes
