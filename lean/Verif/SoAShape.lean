import Verif.SoAConf

/-!
# C48: batch shapes
-/

namespace SoA

open Agg NArr

variable {α : Type}

/-- The class and all classes nested in it have at least one field. -/
def Cls.HasFields : Cls α → Prop
  | .nil => True
  | .leaf _ _ _ rest => rest.HasFields
  | .nested _ _ sub rest => sub ≠ .nil ∧ sub.HasFields ∧ rest.HasFields

/-- The instance has the fields of the class (any shapes). -/
def Fields (c : Cls α) (x : Tree α) : Prop := ConfP (fun _ (a : NArr α) => a.Wf) [] c x

theorem fieldBatch_eq {ish s b : List Nat} : fieldBatch ish s = .tup b ↔ s = b ++ ish := by
  unfold fieldBatch
  by_cases h : ish = []
  · subst h
    rw [if_pos rfl, List.append_nil, BShape.tup.injEq]
  · rw [if_neg h]
    by_cases hd : s.drop (s.length - ish.length) = ish
    · rw [if_pos hd, BShape.tup.injEq]
      constructor
      · rintro rfl
        have := List.take_append_drop (s.length - ish.length) s
        rw [hd] at this
        exact this.symm
      · intro hs
        subst hs
        rw [List.length_append, Nat.add_sub_cancel, List.take_left']
        rfl
    · rw [if_neg hd]
      constructor
      · intro h; cases h
      · intro hs
        exfalso
        apply hd
        subst hs
        rw [List.length_append, Nat.add_sub_cancel, List.drop_left']
        rfl

theorem nestedBatch_eq {ish b : List Nat} {B : BShape} : nestedBatch ish B = some (.tup b) ↔ B = .tup (b ++ ish) := by
  cases B with
  | tup s =>
    simp only [nestedBatch, Option.some.injEq, fieldBatch_eq, BShape.tup.injEq]
  | unstr =>
    simp only [nestedBatch]
    split <;> simp

theorem foldl_unstr (bs : List BShape) : bs.foldl (fun fin x => if x = .unstr ∨ fin ≠ x then BShape.unstr else fin) .unstr = .unstr := by
  induction bs with
  | nil => rfl
  | cons b bs ih =>
    rw [List.foldl_cons]
    have : (if b = .unstr ∨ BShape.unstr ≠ b then BShape.unstr else .unstr) = .unstr := by split <;> rfl
    rw [this, ih]

theorem finalBatch_eq {bs : List BShape} {b : List Nat} (h : bs ≠ []) : finalBatch bs = .tup b ↔ ∀ x ∈ bs, x = .tup b := by
  cases bs with
  | nil => exact absurd rfl h
  | cons b0 bs =>
    simp only [finalBatch]
    clear h
    induction bs generalizing b0 with
    | nil => simp
    | cons b1 bs ih =>
      rw [List.foldl_cons]
      by_cases hc : b1 = .unstr ∨ b0 ≠ b1
      · rw [if_pos hc, foldl_unstr]
        constructor
        · intro h; cases h
        · intro h
          exfalso
          have h0 := h b0 (by simp)
          have h1 := h b1 (by simp)
          rcases hc with hc | hc
          · rw [h1] at hc; cases hc
          · exact hc (h0.trans h1.symm)
      · rw [if_neg hc, ih]
        have he : b0 = b1 := Classical.byContradiction fun hh => hc (Or.inr hh)
        subst he
        simp

theorem fieldBatches_length {c : Cls α} {x : Tree α} {l : List BShape} (h : fieldBatches c x = some l) : l = [] ↔ c = .nil := by
  cases c with
  | nil =>
    cases x with
    | nil => simp only [fieldBatches, Option.some.injEq] at h; subst h; simp
    | leaf => simp [fieldBatches] at h
    | nested => simp [fieldBatches] at h
  | leaf n ish f cr =>
    cases x with
    | nil => simp [fieldBatches] at h
    | leaf n' a r =>
      simp only [fieldBatches] at h
      cases hr : fieldBatches cr r with
      | none => rw [hr] at h; cases h
      | some l' => rw [hr] at h; simp only [Option.map_some, Option.some.injEq] at h; subst h; simp
    | nested => simp [fieldBatches] at h
  | nested n ish cs cr =>
    cases x with
    | nil => simp [fieldBatches] at h
    | leaf => simp [fieldBatches] at h
    | nested n' s r =>
      simp only [fieldBatches] at h
      cases h1 : fieldBatches cs s with
      | none => rw [h1] at h; cases h
      | some l1 =>
        cases h2 : nestedBatch ish (finalBatch l1) with
        | none => rw [h1] at h; simp only [Option.bind_some, h2] at h; cases h
        | some B =>
          cases h3 : fieldBatches cr r with
          | none => rw [h1] at h; simp only [Option.bind_some, h2, h3] at h; cases h
          | some l' =>
            rw [h1] at h
            simp only [Option.bind_some, h2, h3, Option.map_some, Option.some.injEq] at h
            subst h; simp

/-- Per field: the suggested batch shapes are all `b` iff the fields conform to `b`. -/
theorem fieldBatches_eq {c : Cls α} {x : Tree α} {b : List Nat} (hc : c.HasFields) (hx : Fields c x) :
    (∃ l, fieldBatches c x = some l ∧ ∀ B ∈ l, B = .tup b) ↔ Conf b c x := by
  induction c generalizing x b with
  | nil =>
    cases x with
    | nil => exact ⟨fun _ => trivial, fun _ => ⟨[], rfl, by simp⟩⟩
    | leaf => exact hx.elim
    | nested => exact hx.elim
  | leaf n ish f cr ih =>
    cases x with
    | nil => exact hx.elim
    | nested => exact hx.elim
    | leaf n' a r =>
      have ih' := ih (x := r) (b := b) hc hx.2.2
      constructor
      · rintro ⟨l, hl, hB⟩
        simp only [fieldBatches] at hl
        cases hr : fieldBatches cr r with
        | none => rw [hr] at hl; cases hl
        | some l' =>
          rw [hr] at hl
          simp only [Option.map_some, Option.some.injEq] at hl
          subst hl
          refine ⟨hx.1, ⟨hx.2.1, ?_⟩, ih'.1 ⟨l', hr, fun B hB' => hB B (by simp [hB'])⟩⟩
          exact fieldBatch_eq.1 (hB _ (by simp))
      · rintro ⟨_, ⟨_, hs⟩, hr⟩
        obtain ⟨l, hl, hB⟩ := ih'.2 hr
        refine ⟨fieldBatch ish a.shape :: l, by simp only [fieldBatches, hl, Option.map_some], ?_⟩
        intro B hB'
        rcases List.mem_cons.1 hB' with rfl | h
        · exact fieldBatch_eq.2 hs
        · exact hB B h
  | nested n ish cs cr ih1 ih2 =>
    cases x with
    | nil => exact hx.elim
    | leaf => exact hx.elim
    | nested n' s r =>
      have hxs : Fields cs s := by
        have := hx.2.1
        have h2 := confP_shift (P := fun _ (a : NArr α) => a.Wf) (e := ish) (e' := []) (c := cs) (x := s)
        rw [List.append_nil] at h2
        exact h2.2 this
      have i1 := ih1 (x := s) (b := b ++ ish) hc.2.1 hxs
      have i2 := ih2 (x := r) (b := b) hc.2.2 hx.2.2
      constructor
      · rintro ⟨l, hl, hB⟩
        simp only [fieldBatches] at hl
        cases h1 : fieldBatches cs s with
        | none => rw [h1] at hl; cases hl
        | some l1 =>
          cases h2 : nestedBatch ish (finalBatch l1) with
          | none => rw [h1] at hl; simp only [Option.bind_some, h2] at hl; cases hl
          | some B =>
            cases h3 : fieldBatches cr r with
            | none => rw [h1] at hl; simp only [Option.bind_some, h2, h3] at hl; cases hl
            | some l' =>
              rw [h1] at hl
              simp only [Option.bind_some, h2, h3, Option.map_some, Option.some.injEq] at hl
              subst hl
              have hB0 := hB B (by simp)
              subst hB0
              have hne : l1 ≠ [] := fun h => hc.1 ((fieldBatches_length h1).1 h)
              have hf := (finalBatch_eq hne).1 (nestedBatch_eq.1 h2)
              exact ⟨hx.1, conf_nested.2 (i1.1 ⟨l1, h1, hf⟩), i2.1 ⟨l', h3, fun B hB' => hB B (by simp [hB'])⟩⟩
      · rintro ⟨_, hs, hr⟩
        obtain ⟨l1, h1, h2⟩ := i1.2 (conf_nested.1 hs)
        obtain ⟨l', h3, h4⟩ := i2.2 hr
        have hne : l1 ≠ [] := fun h => hc.1 ((fieldBatches_length h1).1 h)
        have hf := nestedBatch_eq.2 ((finalBatch_eq hne).2 h2)
        refine ⟨.tup b :: l', by simp only [fieldBatches, h1, Option.bind_some, hf, h3, Option.map_some], ?_⟩
        intro B hB'
        rcases List.mem_cons.1 hB' with rfl | h
        · rfl
        · exact h4 B h

/-- **C48, batch shape.**  For every class with fields (and whose nested classes have fields) and every instance of it: `shape.batch` is the
tuple `b` iff every field has shape `b` followed by its intrinsic shape. -/
theorem batch_shape_iff {c : Cls α} {x : Tree α} {b : List Nat} (hne : c ≠ .nil) (hc : c.HasFields) (hx : Fields c x) :
    batchShape c x = some (.tup b) ↔ Conf b c x := by
  rw [← fieldBatches_eq hc hx]
  unfold batchShape
  cases h : fieldBatches c x with
  | none => simp
  | some l =>
    have hl : l ≠ [] := fun h' => hne ((fieldBatches_length h).1 h')
    simp only [Option.map_some, Option.some.injEq, finalBatch_eq hl]
    constructor
    · intro h; exact ⟨l, rfl, h⟩
    · rintro ⟨l', rfl, h⟩; exact h

theorem conf_fields {b : List Nat} {c : Cls α} {x : Tree α} (h : Conf b c x) : Fields c x := confP_imp h fun _ _ h => h.1

theorem batchShape_of_conf {b : List Nat} {c : Cls α} {x : Tree α} (hne : c ≠ .nil) (hc : c.HasFields) (h : Conf b c x) :
    batchShape c x = some (.tup b) := (batch_shape_iff hne hc (conf_fields h)).2 h

/-- A consistent instance has one batch shape. -/
theorem conf_unique {b b' : List Nat} {c : Cls α} {x : Tree α} (hne : c ≠ .nil) (hc : c.HasFields) (h : Conf b c x) (h' : Conf b' c x) : b = b' := by
  have h1 := batchShape_of_conf hne hc h
  have h2 := batchShape_of_conf hne hc h'
  rw [h1] at h2
  cases h2
  rfl

/-- **C48, disagreement.**  If no batch shape fits all the fields, `shape.batch` is -1 (or, for a nested field with an intrinsic shape and
an unstructured value, `.shape` raises). -/
theorem batch_shape_unstructured {c : Cls α} {x : Tree α} (hne : c ≠ .nil) (hc : c.HasFields) (hx : Fields c x) (h : ∀ b, ¬ Conf b c x) :
    batchShape c x = some .unstr ∨ batchShape c x = none := by
  cases hb : batchShape c x with
  | none => exact Or.inr rfl
  | some B =>
    cases B with
    | unstr => exact Or.inl rfl
    | tup b => exact absurd ((batch_shape_iff hne hc hx).1 hb) (h b)

/-- Classes without nested fields of non-trivial intrinsic shape: `.shape` never raises. -/
def Cls.NoNestedShape : Cls α → Prop
  | .nil => True
  | .leaf _ _ _ rest => rest.NoNestedShape
  | .nested _ ish sub rest => ish = [] ∧ sub.NoNestedShape ∧ rest.NoNestedShape

theorem fieldBatches_total {c : Cls α} {x : Tree α} (hn : c.NoNestedShape) (hx : Fields c x) : ∃ l, fieldBatches c x = some l := by
  unfold Fields at hx
  generalize hE : ([] : List Nat) = E at hx
  clear hE
  induction c generalizing x E with
  | nil =>
    cases x with
    | nil => exact ⟨_, rfl⟩
    | leaf => exact hx.elim
    | nested => exact hx.elim
  | leaf n ish f cr ih =>
    cases x with
    | nil => exact hx.elim
    | nested => exact hx.elim
    | leaf n' a r =>
      obtain ⟨l, hl⟩ := ih hn E hx.2.2
      exact ⟨_, by simp only [fieldBatches, hl, Option.map_some]; rfl⟩
  | nested n ish cs cr ih1 ih2 =>
    cases x with
    | nil => exact hx.elim
    | leaf => exact hx.elim
    | nested n' s r =>
      obtain ⟨l, hl⟩ := ih1 hn.2.1 _ hx.2.1
      obtain ⟨l', hl'⟩ := ih2 hn.2.2 E hx.2.2
      have hish := hn.1
      subst hish
      have : ∃ B, nestedBatch [] (finalBatch l) = some B := by
        cases finalBatch l with
        | tup s => exact ⟨_, rfl⟩
        | unstr => exact ⟨_, rfl⟩
      obtain ⟨B, hB⟩ := this
      exact ⟨B :: l', by simp only [fieldBatches, hl, hl', hB, Option.map_some, Option.bind_some]⟩

/-- **C48, disagreement** for classes whose nested fields have no intrinsic shape: `shape.batch` is -1, `len` and `ndim` raise and
`structured_type` is UNSTRUCTURED. -/
theorem batch_shape_disagree {c : Cls α} {x : Tree α} (hne : c ≠ .nil) (hc : c.HasFields) (hn : c.NoNestedShape) (hx : Fields c x)
    (h : ∀ b, ¬ Conf b c x) :
    batchShape c x = some .unstr ∧ structuredType c x = some .unstructured ∧ len c x = none ∧ ndim c x = none := by
  have hb : batchShape c x = some .unstr := by
    rcases batch_shape_unstructured hne hc hx h with h | h
    · exact h
    · obtain ⟨l, hl⟩ := fieldBatches_total hn hx
      unfold batchShape at h
      rw [hl] at h
      cases h
  refine ⟨hb, ?_, ?_, ?_⟩ <;> simp [structuredType, len, ndim, hb]

/-- **C48, derived properties.**  `len`, `ndim` and `structured_type` of an instance with batch shape `b`. -/
theorem derived_of_conf {b : List Nat} {c : Cls α} {x : Tree α} (hne : c ≠ .nil) (hc : c.HasFields) (h : Conf b c x) :
    len c x = some (b.headD 1) ∧ ndim c x = some b.length ∧
      structuredType c x = some (if b = [] then .single else .batched) := by
  have hb := batchShape_of_conf hne hc h
  unfold len ndim structuredType
  rw [hb]
  cases b <;> simp

variable [Inhabited α]

/-- Fill values can be broadcast to the field shapes (constants always can). -/
def Cls.FillOk : Cls α → List Nat → Prop
  | .nil, _ => True
  | .leaf _ ish fill rest, b => (∃ a, broadcastTo (fill (b ++ ish)) (b ++ ish) = some a) ∧ rest.FillOk b
  | .nested _ ish sub rest, b => sub.FillOk (b ++ ish) ∧ rest.FillOk b

theorem broadcastTo_shape {a w : NArr α} {t : List Nat} (h : broadcastTo a t = some w) : w.Wf ∧ w.shape = t := by
  unfold broadcastTo at h
  split at h
  · cases h; exact ⟨ofFn_wf _ _, rfl⟩
  · cases h

/-- A scalar can be broadcast to every shape. -/
theorem broadcastTo_scalar (v : α) (t : List Nat) : broadcastTo ⟨[], [v]⟩ t = some (ofFn t fun _ => v) := by
  unfold broadcastTo
  rw [if_pos (by simp [bcastDims])]
  congr 1

/-- **C48, default.**  `default(b)` is an instance with batch shape `b`. -/
theorem default_conf {c : Cls α} {b : List Nat} (h : c.FillOk b) : ∃ x, defaultInst c b = some x ∧ Conf b c x := by
  induction c generalizing b with
  | nil => exact ⟨_, rfl, trivial⟩
  | leaf n ish f cr ih =>
    obtain ⟨⟨a, ha⟩, hr⟩ := h
    obtain ⟨r, h1, h2⟩ := ih hr
    refine ⟨.leaf n a r, by simp only [defaultInst, ha, h1, Option.bind_some, Option.map_some], rfl, broadcastTo_shape ha, h2⟩
  | nested n ish cs cr ih1 ih2 =>
    obtain ⟨s, h1, h2⟩ := ih1 h.1
    obtain ⟨r, h3, h4⟩ := ih2 h.2
    exact ⟨.nested n s r, by simp only [defaultInst, h1, h3, Option.bind_some, Option.map_some], rfl, conf_nested.2 h2, h4⟩

/-- Whatever `default(b)` returns is an instance with batch shape `b`. -/
theorem default_conf_of_eq {c : Cls α} {b : List Nat} {x : Tree α} (h : defaultInst c b = some x) : Conf b c x := by
  have hf : c.FillOk b := by
    induction c generalizing b x with
    | nil => trivial
    | leaf n ish f cr ih =>
      simp only [defaultInst] at h
      cases ha : broadcastTo (f (b ++ ish)) (b ++ ish) with
      | none => rw [ha] at h; cases h
      | some a =>
        cases hr : defaultInst cr b with
        | none => rw [ha, hr] at h; cases h
        | some r => exact ⟨⟨a, ha⟩, ih hr⟩
    | nested n ish cs cr ih1 ih2 =>
      simp only [defaultInst] at h
      cases hs : defaultInst cs (b ++ ish) with
      | none => rw [hs] at h; cases h
      | some s =>
        cases hr : defaultInst cr b with
        | none => rw [hs, hr] at h; cases h
        | some r => exact ⟨ih1 hs, ih2 hr⟩
  obtain ⟨y, h1, h2⟩ := default_conf hf
  rw [h] at h1
  cases h1
  exact h2

/-- A nested class without fields breaks the batch shape: its own `shape.batch` is always `()`. -/
theorem empty_nested_unstructured :
    let c : Cls Nat := .leaf "a" [] (fun _ => ⟨[], [0]⟩) (.nested "e" [] .nil .nil)
    ∃ x, defaultInst c [3] = some x ∧ Conf [3] c x ∧ batchShape c x = some .unstr :=
  ⟨_, rfl, ⟨rfl, ⟨rfl, rfl⟩, rfl, trivial, trivial⟩, rfl⟩

/-- A nested field with an intrinsic shape whose value is unstructured makes `.shape` raise. -/
theorem nested_unstructured_raises :
    let c : Cls Nat := .nested "p" [2] (.leaf "a" [] (fun _ => ⟨[], [0]⟩) (.leaf "b" [] (fun _ => ⟨[], [0]⟩) .nil)) .nil
    batchShape c (.nested "p" (.leaf "a" ⟨[2], [0, 0]⟩ (.leaf "b" ⟨[3], [0, 0, 0]⟩ .nil)) .nil) = none := by
  decide

/-- Non-trivial case: a scalar field, a vector field, a nested class in an intrinsic shape of its own; batch shape `(2, 1)`. -/
def demoC : Cls Nat :=
  .leaf "a" [] (fun _ => ⟨[], [7]⟩) (.nested "p" [2] (.leaf "q" [3] (fun _ => ⟨[], [5]⟩) .nil) (.leaf "v" [2] (fun _ => ⟨[], [9]⟩) .nil))

example : ∃ x, defaultInst demoC [2, 1] = some x ∧ batchShape demoC x = some (.tup [2, 1]) ∧ (leaves x).map NArr.shape = [[2, 1], [2, 1, 2, 3], [2, 1, 2]] :=
  ⟨_, rfl, by decide +kernel, by decide +kernel⟩

end SoA
