/-
C108: functions taken by their number from an object that wraps several.
-/
import Verif.Model.FuncRef
import Verif.Props.Expression

namespace Probayes

variable {V : Type} {sub : V → V → V} {str : Str → V}

/-! ### What is claimed -/

/-- `x` is number `i` of `xs`, counted from zero, or from the end if negative. -/
def Spec.Numbered (xs : List FItem) (i : ℤ) (x : FItem) : Prop :=
  ∃ a b, xs = a ++ x :: b ∧ (i = a.length ∨ i = -(b.length + 1))

/-- Neither asks for a function nor uses a reference. -/
def Spec.Idle : FEvent V → Prop
  | .show => True
  | .call _ => True
  | _ => False

/-- Asks for a name. -/
def Spec.AsksName : FEvent V → Prop
  | .name _ => True
  | _ => False

/-- An object that wraps several functions, of which no name has been asked. -/
structure Spec.Wraps (s : FuncState V) (xs : List FItem) : Prop where
  body : s.body = .many xs
  fns : ∀ x ∈ xs, ∃ id, x = .fn id
  ne : xs ≠ []
  unknown : s.unknown = none

/-- What the reference gives when it is used after a history. -/
def Spec.givenAfter (sub : V → V → V) (str : Str → V) (s : FuncState V) (h : List (FEvent V)) (c : Call V) : Py (FuncOut V) :=
  ((s.after sub str h).act sub str (.use c)).2

/-- What an object that wraps the function `id` alone, with the same arguments and mappings of its own,
gives when it is called. -/
def Spec.alone (sub : V → V → V) (str : Str → V) (s : FuncState V) (id : ℕ) (c : Call V) : Py (FuncOut V) :=
  (FuncState.act sub str ⟨.one (.fn id), s.own, s.maps, none, none, s.names⟩ (.call c)).2

/-- C108: a reference to a function calls that function whenever it is used. -/
def C108_claim : Prop :=
  ∀ (V : Type) (sub : V → V → V) (str : Str → V) (s : FuncState V) (xs : List FItem) (pre mid : List (FEvent V))
    (i : ℤ) (id : ℕ) (c : Call V), Spec.Wraps s xs → Spec.Numbered xs i (.fn id) →
    (∀ e ∈ pre ++ mid, ¬Spec.AsksName e) → Spec.givenAfter sub str s (pre ++ .get i :: mid) c = Spec.alone sub str s id c

/-! ### Lemmas -/

theorem itemAt_numbered {xs : List FItem} {i : ℤ} {x : FItem} (h : Spec.Numbered xs i x) : itemAt xs i = .ok x := by
  obtain ⟨a, b, rfl, rfl | rfl⟩ := h
  · have h1 : ¬((a.length : ℤ) < 0) := by omega
    have h2 : (0 : ℤ) ≤ a.length := by omega
    simp only [itemAt, if_neg h1, if_pos h2, Int.toNat_natCast]
    simp
  · have h1 : -((b.length : ℤ) + 1) < 0 := by omega
    have h2 : -((b.length : ℤ) + 1) + ((a ++ x :: b).length : ℤ) = a.length := by
      simp only [List.length_append, List.length_cons]; push_cast; omega
    have h3 : (0 : ℤ) ≤ a.length := by omega
    simp only [itemAt, if_pos h1, h2, if_pos h3, Int.toNat_natCast]
    simp

/-- What stays the same. -/
structure Same (s t : FuncState V) : Prop where
  body : t.body = s.body
  own : t.own = s.own
  maps : t.maps = s.maps
  names : t.names = s.names

theorem same_callRef (s : FuncState V) (c : Call V) : Same s (s.callRef sub c).1 := by
  unfold FuncState.callRef
  split
  · exact ⟨rfl, rfl, rfl, rfl⟩
  · split
    · split <;> exact ⟨rfl, rfl, rfl, rfl⟩
    · exact ⟨rfl, rfl, rfl, rfl⟩

theorem same_use (s : FuncState V) (c : Call V) : Same s (s.use sub str c).1 := by
  unfold FuncState.use
  split
  · exact same_callRef s c
  · have := same_callRef (sub := sub) { s with unknown := none }
      { c with kwds := c.kwds.set ['u', 'n', 'k', 'n', 'o', 'w', 'n'] (str ‹_›) }
    exact ⟨this.body, this.own, this.maps, this.names⟩

theorem same_act (s : FuncState V) (e : FEvent V) : Same s (s.act sub str e).1 := by
  cases e with
  | «show» => exact ⟨rfl, rfl, rfl, rfl⟩
  | get i => simp only [FuncState.act]; split <;> exact ⟨rfl, rfl, rfl, rfl⟩
  | name k => simp only [FuncState.act]; split <;> exact ⟨rfl, rfl, rfl, rfl⟩
  | use c => exact same_use s c
  | call c =>
    simp only [FuncState.act]
    split
    · exact ⟨rfl, rfl, rfl, rfl⟩
    · exact same_use s c

theorem same_after : ∀ (h : List (FEvent V)) (s : FuncState V), Same s (s.after sub str h)
  | [], s => ⟨rfl, rfl, rfl, rfl⟩
  | e :: h, s => by
    have h1 := same_act (sub := sub) (str := str) s e
    have h2 := same_after h (s.act sub str e).1
    exact ⟨h2.body.trans h1.body, h2.own.trans h1.own, h2.maps.trans h1.maps, h2.names.trans h1.names⟩

theorem after_append (h h' : List (FEvent V)) (s : FuncState V) :
    s.after sub str (h ++ h') = (s.after sub str h).after sub str h' := by
  simp [FuncState.after]

theorem callRef_unknown (s : FuncState V) (c : Call V) (h : s.unknown = none) : (s.callRef sub c).1.unknown = none := by
  unfold FuncState.callRef
  split
  · exact h
  · split
    · split <;> exact h
    · exact h

theorem after_unknown : ∀ (h : List (FEvent V)) (s : FuncState V), s.unknown = none → (∀ e ∈ h, ¬Spec.AsksName e) →
    (s.after sub str h).unknown = none
  | [], _, hs, _ => hs
  | e :: h, s, hs, hn => by
    refine after_unknown h (s.act sub str e).1 ?_ fun e he => hn e (by simp [he])
    have huse : ∀ c, (s.use sub str c).1.unknown = none := fun c => by
      simp only [FuncState.use, hs]
      exact callRef_unknown s c hs
    cases e with
    | «show» => exact hs
    | get i => simp only [FuncState.act]; split <;> exact hs
    | name k => exact absurd (show Spec.AsksName (.name k : FEvent V) from trivial) (hn _ (by simp))
    | use c => exact huse c
    | call c =>
      simp only [FuncState.act]
      split
      · exact hs
      · exact huse c

/-- Idle events change nothing while several functions are wrapped. -/
theorem after_idle : ∀ (h : List (FEvent V)) (s : FuncState V), s.body.isMulti = true → (∀ e ∈ h, Spec.Idle e) →
    s.after sub str h = s
  | [], _, _, _ => rfl
  | e :: h, s, hs, hn => by
    have he : (s.act sub str e).1 = s := by
      have := hn e (by simp)
      cases e with
      | «show» => rfl
      | call c => simp only [FuncState.act, hs, if_true]
      | get i => exact absurd this (by simp [Spec.Idle])
      | name k => exact absurd this (by simp [Spec.Idle])
      | use c => exact absurd this (by simp [Spec.Idle])
    have := after_idle h s hs fun e he => hn e (by simp [he])
    show (s.act sub str e).1.after sub str h = s
    rw [he]
    exact this

theorem isFn_many {s : FuncState V} {xs : List FItem} (W : Spec.Wraps s xs) : s.body.isFn = true := by
  rw [W.body]
  obtain _ | ⟨x, xs⟩ := xs
  · exact absurd rfl W.ne
  · obtain ⟨id, rfl⟩ := W.fns x (by simp)
    rfl

theorem idle_no_name {e : FEvent V} (h : Spec.Idle e) : ¬Spec.AsksName e := by
  cases e <;> simp_all [Spec.Idle, Spec.AsksName]

/-! ### The theorems -/

/-- C108: a reference gives what an object that wraps the function alone would give, if that function
was the last that was asked for and no reference has been used since. -/
theorem C108_latest_partial {s : FuncState V} {xs : List FItem} (W : Spec.Wraps s xs) (pre rest : List (FEvent V)) (i : ℤ)
    (id : ℕ) (hi : Spec.Numbered xs i (.fn id)) (hpre : ∀ e ∈ pre, ¬Spec.AsksName e) (hrest : ∀ e ∈ rest, Spec.Idle e)
    (c : Call V) : Spec.givenAfter sub str s (pre ++ .get i :: rest) c = Spec.alone sub str s id c := by
  have hb := same_after (sub := sub) (str := str) pre s
  have hu := after_unknown (sub := sub) (str := str) pre s W.unknown hpre
  set t := s.after sub str pre with ht
  have hm : t.body = .many xs := hb.body.trans W.body
  have hg : t.act sub str (.get i) = ({ t with index := some i }, .ok .reference) := by
    simp [FuncState.act, hm, FBody.isMulti]
  have : s.after sub str (pre ++ .get i :: rest) = { t with index := some i } := by
    rw [after_append, ← ht]
    show (t.act sub str (.get i)).1.after sub str rest = _
    rw [hg]
    exact after_idle rest _ (by simp [hm, FBody.isMulti]) hrest
  have hf := isFn_many W
  rw [Spec.givenAfter, this]
  simp only [FuncState.act, FuncState.use, hu, FuncState.callRef, hm, itemAt_numbered hi, Spec.alone, FBody.isMulti,
    if_false, Bool.false_eq_true]
  have hf' : (FBody.many xs).isFn = true := by rw [← W.body]; exact hf
  have hone : (FBody.one (.fn id)).isFn = true := rfl
  simp only [FuncState.pass, hf', hone, hb.own, hb.maps]

/-- C108: once a reference has been used, it and all others fail until a function is asked for
again. -/
theorem C108_spent {s : FuncState V} {xs : List FItem} (W : Spec.Wraps s xs) (pre rest : List (FEvent V)) (i : ℤ) (id : ℕ)
    (hi : Spec.Numbered xs i (.fn id)) (hpre : ∀ e ∈ pre, ¬Spec.AsksName e) (mid : List (FEvent V))
    (hmid : ∀ e ∈ mid, Spec.Idle e) (hrest : ∀ e ∈ rest, ¬Spec.AsksName e ∧ ∀ j, e ≠ .get j) (c' c : Call V) :
    Raises (Spec.givenAfter sub str s (pre ++ .get i :: mid ++ .use c' :: rest) c) := by
  have hb := same_after (sub := sub) (str := str) pre s
  have hu := after_unknown (sub := sub) (str := str) pre s W.unknown hpre
  set t := s.after sub str pre with ht
  have hm : t.body = .many xs := hb.body.trans W.body
  have hg : t.act sub str (.get i) = ({ t with index := some i }, .ok .reference) := by
    simp [FuncState.act, hm, FBody.isMulti]
  have h1 : s.after sub str (pre ++ .get i :: mid) = { t with index := some i } := by
    rw [after_append, ← ht]
    show (t.act sub str (.get i)).1.after sub str mid = _
    rw [hg]
    exact after_idle mid _ (by simp [hm, FBody.isMulti]) hmid
  have h2 : ({ t with index := some i } : FuncState V).act sub str (.use c') =
      ({ t with index := none }, ({ t with index := none } : FuncState V).pass sub (.one (.fn id)) c') := by
    simp [FuncState.act, FuncState.use, hu, FuncState.callRef, hm, itemAt_numbered hi]
  have hpass : ∀ c, Raises (({ t with index := none } : FuncState V).pass sub (.many xs) c) := by
    intro c
    have hf' : (FBody.many xs).isFn = true := by rw [← W.body]; exact isFn_many W
    simp only [FuncState.pass, hm, hf', Bool.true_eq_false, if_false, Bind.bind, Except.bind]
    split
    · exact ⟨_, rfl⟩
    · split <;> exact ⟨_, rfl⟩
    · split <;> exact ⟨_, rfl⟩
  have h3 : ∀ rest : List (FEvent V), (∀ e ∈ rest, ¬Spec.AsksName e ∧ ∀ j, e ≠ .get j) →
      ({ t with index := none } : FuncState V).after sub str rest = { t with index := none } := by
    intro rest
    induction rest with
    | nil => intro _; rfl
    | cons e rest ih =>
      intro hr
      have : (({ t with index := none } : FuncState V).act sub str e).1 = { t with index := none } := by
        cases e with
        | «show» => rfl
        | get j => exact absurd rfl ((hr _ (by simp)).2 j)
        | name k => exact absurd (show Spec.AsksName (.name k : FEvent V) from trivial) (hr _ (by simp)).1
        | use c => simp [FuncState.act, FuncState.use, hu, FuncState.callRef]
        | call c => simp [FuncState.act, hm, FBody.isMulti]
      show (({ t with index := none } : FuncState V).act sub str e).1.after sub str rest = _
      rw [this]
      exact ih fun e he => hr e (by simp [he])
  have h4 : s.after sub str (pre ++ .get i :: mid ++ .use c' :: rest) = { t with index := none } := by
    rw [after_append, h1]
    show (({ t with index := some i } : FuncState V).act sub str (.use c')).1.after sub str rest = _
    rw [h2]
    exact h3 rest hrest
  rw [Spec.givenAfter, h4]
  simp only [FuncState.act, FuncState.use, hu, FuncState.callRef]
  have := hpass c
  rw [← hm] at this
  exact this

/-- C108: a reference made with a number that is out of range keeps failing. -/
theorem C108_out_of_range {s : FuncState V} {xs : List FItem} (W : Spec.Wraps s xs) (pre rest : List (FEvent V)) (i : ℤ)
    (hi : ∀ x, ¬Spec.Numbered xs i x) (hpre : ∀ e ∈ pre, ¬Spec.AsksName e)
    (hrest : ∀ e ∈ rest, ¬Spec.AsksName e ∧ ∀ j, e ≠ .get j) (c : Call V) :
    Spec.givenAfter sub str s (pre ++ .get i :: rest) c = .error .index := by
  have hb := same_after (sub := sub) (str := str) pre s
  have hu := after_unknown (sub := sub) (str := str) pre s W.unknown hpre
  set t := s.after sub str pre with ht
  have hm : t.body = .many xs := hb.body.trans W.body
  have hitem : itemAt xs i = .error .index := by
    unfold itemAt
    simp only []
    by_cases h0 : i < 0
    · rw [if_pos h0]
      split
      · rename_i h
        split
        · rename_i x hx
          refine absurd ?_ (hi x)
          obtain ⟨hlt, hx'⟩ := List.getElem?_eq_some_iff.1 hx
          refine ⟨xs.take (i + xs.length).toNat, xs.drop ((i + xs.length).toNat + 1), ?_, .inr ?_⟩
          · rw [← hx', List.cons_getElem_drop_succ, List.take_append_drop]
          · rw [List.length_drop]; omega
        · rfl
      · rfl
    · rw [if_neg h0, if_pos (by omega)]
      split
      · rename_i x hx
        refine absurd ?_ (hi x)
        obtain ⟨hlt, hx'⟩ := List.getElem?_eq_some_iff.1 hx
        refine ⟨xs.take i.toNat, xs.drop (i.toNat + 1), ?_, .inl ?_⟩
        · rw [← hx', List.cons_getElem_drop_succ, List.take_append_drop]
        · rw [List.length_take]; omega
      · rfl
  have h3 : ∀ rest : List (FEvent V), (∀ e ∈ rest, ¬Spec.AsksName e ∧ ∀ j, e ≠ .get j) →
      ({ t with index := some i } : FuncState V).after sub str rest = { t with index := some i } := by
    intro rest
    induction rest with
    | nil => intro _; rfl
    | cons e rest ih =>
      intro hr
      have : (({ t with index := some i } : FuncState V).act sub str e).1 = { t with index := some i } := by
        cases e with
        | «show» => rfl
        | get j => exact absurd rfl ((hr _ (by simp)).2 j)
        | name k => exact absurd (show Spec.AsksName (.name k : FEvent V) from trivial) (hr _ (by simp)).1
        | use c => simp [FuncState.act, FuncState.use, hu, FuncState.callRef, hm, hitem]
        | call c => simp [FuncState.act, hm, FBody.isMulti]
      show (({ t with index := some i } : FuncState V).act sub str e).1.after sub str rest = _
      rw [this]
      exact ih fun e he => hr e (by simp [he])
  have hg : t.act sub str (.get i) = ({ t with index := some i }, .ok .reference) := by
    simp [FuncState.act, hm, FBody.isMulti]
  have h1 : s.after sub str (pre ++ .get i :: rest) = { t with index := some i } := by
    rw [after_append, ← ht]
    show (t.act sub str (.get i)).1.after sub str rest = _
    rw [hg]
    exact h3 rest hrest
  rw [Spec.givenAfter, h1]
  simp [FuncState.act, FuncState.use, hu, FuncState.callRef, hm, hitem]

/-- C108: an object that wraps one function calls it with its own arguments before those of the call;
its own keywords override those of the call. -/
theorem C108_alone (s : FuncState V) (id : ℕ) (c : Call V) (hm : s.maps = ⟨none, none⟩) (hd : ∀ d, c.args ≠ [.dict d])
    (hk : s.own.kwds.keys.Nodup) : ∃ kw, Spec.alone sub str s id c = .ok (.called id ⟨s.own.args ++ c.args, kw⟩) ∧
      ∀ k, kw.get? k = (s.own.kwds.get? k).or (c.kwds.get? k) := by
  refine ⟨kwdsOver c.kwds s.own.kwds, ?_, fun k => ?_⟩
  · have hu : unpackDict c = c := by
      unfold unpackDict
      split
      · rename_i d h; exact absurd h (hd d)
      · rfl
    simp [Spec.alone, FuncState.act, FBody.isMulti, FuncState.use, FuncState.callRef, FuncState.pass, FBody.isFn,
      FItem.isFn, hu, hm, truthy, Bind.bind, Except.bind, Pure.pure, Except.pure]
  · rw [kwdsOver, foldl_set_get?' s.own.kwds c.kwds k hk]
    cases s.own.kwds.get? k <;> rfl

/-- C108: an order is followed as an expression follows it (C46). -/
theorem C108_order_partial (s : FuncState V) (id : ℕ) (c : Call V) (m : Dict Str Route) (hne : m ≠ [])
    (hm : s.maps.order = some m) (hown : s.own = ⟨[], []⟩) (hd : ∀ d, c.args ≠ [.dict d])
    (hc : Spec.Clean m (fun k => [k]) c.args c.kwds) (value : Str → V) (hv : ∀ k ∈ m.keys, c.kwds.get? k = some (value k)) :
    ∃ c', Spec.alone sub str s id c = .ok (.called id c') ∧ Spec.Routed m m.keys value c.args c.kwds c' := by
  obtain ⟨c', h1, h2⟩ := C46_order_partial sub m none false c.args c.kwds hne hd hc value hv
  refine ⟨c', ?_, h2⟩
  have hu : unpackDict c = c := by
    unfold unpackDict
    split
    · rename_i d h; exact absurd h (hd d)
    · rfl
  have ht : truthy (some m) = some m := by
    cases m with
    | nil => exact absurd rfl hne
    | cons a m => rfl
  have hu' : unpackDict (⟨c.args, c.kwds⟩ : Call V) = c := hu
  simp only [exprCall, hu', ht] at h1
  simp [Spec.alone, FuncState.act, FBody.isMulti, FuncState.use, FuncState.callRef, FuncState.pass, FBody.isFn,
    FItem.isFn, hu, hm, hown, ht, kwdsOver, h1, Bind.bind, Except.bind]

/-- C108: a name that is asked for is passed on as `unknown`, to the next call only. -/
theorem C108_unknown (s : FuncState V) (hn : s.names = true) (k : Str) (c : Call V) :
    ((s.act sub str (.name k)).1.act sub str (.use c)).2 =
        (({ s with unknown := none } : FuncState V).act sub str
          (.use { c with kwds := c.kwds.set ['u', 'n', 'k', 'n', 'o', 'w', 'n'] (str k) })).2 ∧
      ((s.act sub str (.name k)).1.act sub str (.use c)).1.unknown = none := by
  constructor
  · simp [FuncState.act, hn, FuncState.use]
  · simp only [FuncState.act, hn, if_true, FuncState.use]
    exact callRef_unknown _ _ rfl

/-- C108: several objects are not called without a number, and a single one has none. -/
theorem C108_refused (s : FuncState V) : (∀ xs c, s.body = .many xs → s.act sub str (.call c) = (s, .error .assertion)) ∧
    (∀ x i, s.body = .one x → s.act sub str (.get i) = (s, .error .assertion)) := by
  constructor
  · intro xs c h
    simp [FuncState.act, h, FBody.isMulti]
  · intro x i h
    simp [FuncState.act, h, FBody.isMulti]

/-- C108: functions are not mixed with objects that cannot be called, and those take no arguments. -/
theorem C108_mixed_refused (s : FuncState V) (xs : List FItem) (x y : FItem) (hx : x ∈ xs) (hy : y ∈ xs) (own : Call V)
    (order delta : Option (Option (Dict Str Route))) (h : (∃ id, x = .fn id) ∧ ¬∃ id, y = .fn id) :
    (s.setFunc (.many xs) own order delta).2 = some .assertion := by
  obtain ⟨⟨id, rfl⟩, hy'⟩ := h
  have hal : (FBody.many xs).alike = false := by
    obtain _ | ⟨z, zs⟩ := xs
    · simp at hx
    · rw [Bool.eq_false_iff]
      intro hal
      have hal' : ∀ w ∈ z :: zs, w.isFn = z.isFn := by
        simp only [FBody.alike, List.all_eq_true, Bool.and_eq_true, beq_iff_eq] at hal
        intro w hw
        rcases List.mem_cons.1 hw with rfl | hw
        · rfl
        · exact (hal w hw).1
      have e1 := hal' _ hx
      have e2 := hal' _ hy
      rw [← e1] at e2
      cases y with
      | fn j => exact hy' ⟨j, rfl⟩
      | _ => simp [FItem.isFn] at e2
  simp only [FuncState.setFunc, hal]
  split
  · rfl
  · rfl

/-- C108: nor are single numbers with other objects that cannot be called. -/
theorem C108_scalars_refused (s : FuncState V) (xs : List FItem) (a b : ℕ) (hx : .scalar a ∈ xs) (hy : .other b ∈ xs)
    (own : Call V) (order delta : Option (Option (Dict Str Route))) :
    (s.setFunc (.many xs) own order delta).2 = some .assertion := by
  have hal : (FBody.many xs).alike = false := by
    obtain _ | ⟨z, zs⟩ := xs
    · simp at hx
    · rw [Bool.eq_false_iff]
      intro hal
      have hal' : ∀ w ∈ z :: zs, w.isScalar = z.isScalar := by
        simp only [FBody.alike, List.all_eq_true, Bool.and_eq_true, beq_iff_eq] at hal
        intro w hw
        rcases List.mem_cons.1 hw with rfl | hw
        · rfl
        · exact (hal w hw).2
      have e1 := hal' _ hx
      have e2 := hal' _ hy
      rw [← e1] at e2
      simp [FItem.isScalar] at e2
  simp only [FuncState.setFunc, hal]
  split
  · rfl
  · rfl

/-- C108: an object that is not a function is set without arguments, keywords, order or delta only. -/
theorem C108_object_set (s : FuncState V) (x : FItem) (hx : ∀ id, x ≠ .fn id) (own : Call V)
    (order delta : Option (Option (Dict Str Route))) :
    (s.setFunc (.one x) own order delta).2 = none ↔
      own.args = [] ∧ own.kwds = [] ∧ order = none ∧ delta = none := by
  have hf : (FBody.one x).isFn = false := by cases x <;> simp_all [FBody.isFn, FItem.isFn]
  unfold FuncState.setFunc
  simp only [hf, FBody.alike, true_and]
  by_cases h : own.args ≠ [] ∨ own.kwds ≠ [] ∨ order.isSome = true ∨ delta.isSome = true
  · rw [if_pos h]
    simp only [reduceCtorEq, false_iff]
    rintro ⟨h1, h2, rfl, rfl⟩
    simp [h1, h2] at h
  · rw [if_neg h]
    simp only [not_or, not_not, Bool.not_eq_true, Option.isSome_eq_false_iff, Option.isNone_iff_eq_none] at h
    obtain ⟨h1, h2, rfl, rfl⟩ := h
    simp [h1, h2]

/-- C108: functions are set with the arguments given; mappings set before are forgotten. -/
theorem C108_functions_set (s : FuncState V) (xs : List FItem) (h : ∀ x ∈ xs, ∃ id, x = .fn id) (hne : xs ≠ [])
    (own : Call V) : s.setFunc (.many xs) own none none =
      (⟨.many xs, own, ⟨none, none⟩, s.index, s.unknown, s.names⟩, none) := by
  obtain _ | ⟨x, xs⟩ := xs
  · exact absurd rfl hne
  · obtain ⟨id, rfl⟩ := h x (by simp)
    have hal : (FBody.many (.fn id :: xs)).alike = true := by
      simp only [FBody.alike, List.all_eq_true]
      intro y hy
      obtain ⟨j, rfl⟩ := h y (by simp [hy])
      rfl
    simp [FuncState.setFunc, hal, FBody.isFn, FItem.isFn]

/-- C108: an object that is not a function is returned by a call without arguments, and only so. -/
theorem C108_object (s : FuncState V) (x : FItem) (hx : ∀ id, x ≠ .fn id) (hb : s.body = .one x) (hi : s.index = none)
    (hu : s.unknown = none) (c : Call V) :
    (c.args = [] ∧ c.kwds = [] → (s.act sub str (.call c)).2 = .ok (.object x)) ∧
      (c.args ≠ [] ∨ c.kwds ≠ [] → (s.act sub str (.call c)).2 = .error .assertion) := by
  have hf : (FBody.one x).isFn = false := by cases x <;> simp_all [FBody.isFn, FItem.isFn]
  constructor
  · rintro ⟨h1, h2⟩
    simp [FuncState.act, hb, FBody.isMulti, FuncState.use, hu, FuncState.callRef, hi, FuncState.pass, hf, h1, h2]
  · intro h
    have : (c.args.isEmpty && c.kwds.isEmpty) = false := by
      rcases h with h | h <;> simp [h, List.isEmpty_eq_false_iff]
    simp [FuncState.act, hb, FBody.isMulti, FuncState.use, hu, FuncState.callRef, hi, FuncState.pass, hf, this]

/-- C108: of several objects that are not functions the number asked for is returned. -/
theorem C108_object_numbered (s : FuncState V) (xs : List FItem) (hx : ∀ x ∈ xs, ∀ id, x ≠ .fn id) (hb : s.body = .many xs)
    (hu : s.unknown = none) (i : ℤ) (x : FItem) (hi : Spec.Numbered xs i x) :
    Spec.givenAfter sub str s [.get i] ⟨[], []⟩ = .ok (.object x) := by
  have hf : (FBody.many xs).isFn = false := by
    obtain _ | ⟨y, ys⟩ := xs
    · rfl
    · have := hx y (by simp)
      cases y <;> simp_all [FBody.isFn, FItem.isFn]
  simp [Spec.givenAfter, FuncState.after, FuncState.act, hb, FBody.isMulti, FuncState.use, hu, FuncState.callRef,
    itemAt_numbered hi, FuncState.pass, hf]

/-- C108: names are refused if the inputs are not given by names. -/
theorem C108_name_refused (s : FuncState V) (hn : s.names = false) (k : Str) :
    s.act sub str (.name k) = (s, .error .assertion) := by
  simp [FuncState.act, hn]

/-- C108: without a function asked for, nothing can be called. -/
theorem C108_never {s : FuncState V} {xs : List FItem} (W : Spec.Wraps s xs) (hi : s.index = none) (h : List (FEvent V))
    (hh : ∀ e ∈ h, ¬Spec.AsksName e ∧ ∀ j, e ≠ .get j) (c : Call V) : Raises (Spec.givenAfter sub str s h c) := by
  have h3 : ∀ h : List (FEvent V), (∀ e ∈ h, ¬Spec.AsksName e ∧ ∀ j, e ≠ .get j) → s.after sub str h = s := by
    intro h
    induction h with
    | nil => intro _; rfl
    | cons e rest ih =>
      intro hr
      have : (s.act sub str e).1 = s := by
        cases e with
        | «show» => rfl
        | get j => exact absurd rfl ((hr _ (by simp)).2 j)
        | name k => exact absurd (show Spec.AsksName (.name k : FEvent V) from trivial) (hr _ (by simp)).1
        | use c => simp [FuncState.act, FuncState.use, W.unknown, FuncState.callRef, hi]
        | call c => simp [FuncState.act, W.body, FBody.isMulti]
      show (s.act sub str e).1.after sub str rest = _
      rw [this]
      exact ih fun e he => hr e (by simp [he])
  rw [Spec.givenAfter, h3 h hh]
  have hf : (FBody.many xs).isFn = true := by rw [← W.body]; exact isFn_many W
  simp only [FuncState.act, FuncState.use, W.unknown, FuncState.callRef, hi, FuncState.pass, W.body, hf, Bool.true_eq_false,
    if_false, Bind.bind, Except.bind]
  split
  · exact ⟨_, rfl⟩
  · split <;> exact ⟨_, rfl⟩
  · split <;> exact ⟨_, rfl⟩

theorem C108_claim_fails : ¬C108_claim := by
  intro h
  have := h ℕ (· - ·) (fun _ => 0) ⟨.many [.fn 7, .fn 8], ⟨[], []⟩, ⟨none, none⟩, none, none, false⟩ [.fn 7, .fn 8] []
    [.get 1] 0 7 ⟨[.val 3], []⟩ ⟨rfl, by simp, by simp, rfl⟩ ⟨[], [.fn 8], rfl, .inl rfl⟩ (by simp [Spec.AsksName])
  simp [Spec.givenAfter, Spec.alone, FuncState.after, FuncState.act, FBody.isMulti, FuncState.use, FuncState.callRef, itemAt,
    FuncState.pass, FBody.isFn, FItem.isFn, unpackDict, kwdsOver, truthy, Bind.bind, Except.bind, Pure.pure,
    Except.pure] at this

/-- C108: of two references held at the same time, the first calls the function of the second, and the
second then fails. -/
theorem C108_two_held {s : FuncState V} {xs : List FItem} (W : Spec.Wraps s xs) (i j : ℤ) (id : ℕ)
    (hj : Spec.Numbered xs j (.fn id)) (c c' : Call V) :
    Spec.givenAfter sub str s [.get i, .get j] c = Spec.alone sub str s id c ∧
      Raises (Spec.givenAfter sub str s [.get i, .get j, .use c] c') :=
  ⟨C108_latest_partial W [.get i] [] j id hj (by simp [Spec.AsksName]) (by simp) c,
    C108_spent W [.get i] [] j id hj (by simp [Spec.AsksName]) [] (by simp) (by simp) c c'⟩

/-! ### Instances -/

/-- Increment and decrement, as in the documentation of `Func`. -/
def incDec : FuncState ℕ := ⟨.many [.fn 0, .fn 1], ⟨[], []⟩, ⟨none, none⟩, none, none, false⟩

theorem incDec_wraps : Spec.Wraps incDec [.fn 0, .fn 1] := ⟨rfl, by simp, by simp, rfl⟩

example : Spec.givenAfter (· - ·) (fun _ => 0) incDec [.get 0, .use ⟨[.val 3], []⟩, .show, .get (-1)] ⟨[.val 3], []⟩ =
    Spec.alone (· - ·) (fun _ => 0) incDec 1 ⟨[.val 3], []⟩ :=
  C108_latest_partial incDec_wraps [.get 0, .use ⟨[.val 3], []⟩, .show] [] (-1) 1 ⟨[.fn 0], [], rfl, .inr rfl⟩
    (by simp [Spec.AsksName]) (by simp) _

example : Spec.givenAfter (· - ·) (fun _ => 0) incDec [.get 2, .use ⟨[], []⟩] ⟨[.val 3], []⟩ = .error .index := by
  refine C108_out_of_range incDec_wraps [] [.use ⟨[], []⟩] 2 ?_ (by simp) (by simp [Spec.AsksName]) _
  rintro x ⟨a, b, h1, h2⟩
  have := congrArg List.length h1
  simp at this
  omega

end Probayes
