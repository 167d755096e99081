import Verif.DescModel
import Verif.BitpackProps

/-!
# C54 validation, C55 field descriptors
-/

namespace Desc

open Io (DType Arr)

/-! ## C54: what `validate=True` guarantees -/

/-- The value fits the descriptor: its dtype is the declared one, its shape is some batch shape followed by the intrinsic shape, and the
validator of the field accepts it. -/
def Fits (d : FD) (a : Arr) : Prop :=
  a.dtype = d.dtype ∧ (∃ b, a.shape = b ++ d.ish) ∧ ∀ f, d.validator = some f → f a = true

/-- Every array field fits, every nested field holds an instance of its class (whatever is in it). -/
def FieldsFit : Cls → Val → Prop
  | .nil, _ => True
  | .leaf _ d rest, .arr _ a r => Fits d a ∧ FieldsFit rest r
  | .nested _ _ cid _ _ rest, .obj _ cid' _ r => cid' = cid ∧ FieldsFit rest r
  | _, _ => False

/-- Every array field at any depth fits. -/
def DeepFit : Cls → Val → Prop
  | .nil, _ => True
  | .leaf _ d rest, .arr _ a r => Fits d a ∧ DeepFit rest r
  | .nested _ _ cid _ sub rest, .obj _ cid' x r => cid' = cid ∧ DeepFit sub x ∧ DeepFit rest r
  | _, _ => False

theorem suffix_iff {s ish : List Nat} (h : ish.length ≤ s.length) : s.drop (s.length - ish.length) = ish ↔ ∃ b, s = b ++ ish := by
  constructor
  · intro hd
    refine ⟨s.take (s.length - ish.length), ?_⟩
    have := List.take_append_drop (s.length - ish.length) s
    rw [hd] at this
    exact this.symm
  · rintro ⟨b, rfl⟩
    rw [List.length_append, Nat.add_sub_cancel, List.drop_left']
    rfl

theorem checkArr_iff {d : FD} {a : Arr} : checkArr d a = .ok () ↔ a.dtype = d.dtype ∧ ∃ b, a.shape = b ++ d.ish := by
  unfold checkArr
  by_cases h1 : a.dtype = d.dtype
  · rw [if_neg (by simpa using h1)]
    by_cases h2 : d.ish = []
    · rw [if_pos h2]
      exact ⟨fun _ => ⟨h1, a.shape, by rw [h2, List.append_nil]⟩, fun _ => rfl⟩
    · rw [if_neg h2]
      by_cases h3 : a.shape.length < d.ish.length
      · rw [if_pos h3]
        constructor
        · intro h; cases h
        · rintro ⟨_, b, hb⟩
          rw [hb, List.length_append] at h3
          omega
      · rw [if_neg h3]
        have h4 := suffix_iff (Nat.not_lt.1 h3)
        by_cases h5 : a.shape.drop (a.shape.length - d.ish.length) = d.ish
        · rw [if_neg (by simpa using h5)]
          exact ⟨fun _ => ⟨h1, h4.1 h5⟩, fun _ => rfl⟩
        · rw [if_pos h5]
          exact ⟨fun h => (by cases h), fun h => absurd (h4.2 h.2) h5⟩
  · rw [if_pos h1]
    exact ⟨fun h => (by cases h), fun h => absurd h.1 h1⟩

theorem runValidator_iff {v : Option (Arr → Bool)} {a : Arr} : runValidator v a = .ok () ↔ ∀ f, v = some f → f a = true := by
  cases v with
  | none => simp [runValidator]
  | some f =>
    simp only [runValidator, Option.some.injEq]
    by_cases h : f a = true
    · rw [if_pos h]
      exact ⟨fun _ g hg => hg ▸ h, fun _ => rfl⟩
    · rw [if_neg h]
      exact ⟨fun h' => (by cases h'), fun h' => absurd (h' f rfl) h⟩

theorem check_iff : ∀ (c : Cls) (v : Val), check c v = .ok () ↔ FieldsFit c v
  | .nil, v => by cases v <;> simp [check, FieldsFit]
  | .leaf _ d rest, .arr _ a r => by
    have ih := check_iff rest r
    have h1 := @runValidator_iff d.validator a
    have h2 := @checkArr_iff d a
    simp only [check, FieldsFit, Fits]
    rcases hv : runValidator d.validator a with e | u
    · simp only
      refine ⟨fun h => (by cases h), fun h => ?_⟩
      rw [hv] at h1
      cases h1.2 h.1.2.2
    · simp only
      rw [hv] at h1
      rcases ha : checkArr d a with e | u'
      · simp only
        refine ⟨fun h => (by cases h), fun h => ?_⟩
        rw [ha] at h2
        cases h2.2 ⟨h.1.1, h.1.2.1⟩
      · rw [ha] at h2
        simp only
        rw [ih]
        exact ⟨fun h => ⟨⟨(h2.1 rfl).1, (h2.1 rfl).2, h1.1 rfl⟩, h⟩, fun h => h.2⟩
  | .leaf _ _ _, .nil => by simp [check, FieldsFit]
  | .leaf _ _ _, .obj _ _ _ _ => by simp [check, FieldsFit]
  | .leaf _ _ _, .other _ _ => by simp [check, FieldsFit]
  | .nested _ _ cid _ _ rest, .obj _ cid' _ r => by
    have ih := check_iff rest r
    simp only [check, FieldsFit]
    by_cases h : cid' = cid
    · rw [if_pos h, ih]; exact ⟨fun h' => ⟨h, h'⟩, fun h' => h'.2⟩
    · rw [if_neg h]; exact ⟨fun h' => (by cases h'), fun h' => absurd h'.1 h⟩
  | .nested _ _ _ _ _ _, .nil => by simp [check, FieldsFit]
  | .nested _ _ _ _ _ _, .arr _ _ _ => by simp [check, FieldsFit]
  | .nested _ _ _ _ _ _, .other _ _ => by simp [check, FieldsFit]

/-- **C54.**  The constructor of a class declared with `validate=True` returns the instance exactly when every array field has the
declared dtype, a shape that ends with the intrinsic shape, and passes its validator, and every nested field is an instance of its class;
it raises for every other value. -/
theorem validated_constructor (c : Cls) (v : Val) :
    (FieldsFit c v → construct true c v = .ok v) ∧ (¬ FieldsFit c v → ∃ e, construct true c v = .error e) := by
  have h := check_iff c v
  unfold construct
  rw [if_pos rfl]
  rcases hc : check c v with e | u
  · exact ⟨fun hf => (by rw [h.2 hf] at hc; cases hc), fun _ => ⟨e, rfl⟩⟩
  · exact ⟨fun _ => rfl, fun hf => absurd (h.1 hc) hf⟩

/-- Every nested instance was returned by the constructor of its class. -/
def Built : Cls → Val → Prop
  | .nil, _ => True
  | .leaf _ _ rest, .arr _ _ r => Built rest r
  | .nested _ _ cid v sub rest, .obj _ cid' x r => (cid' = cid → construct v sub x = .ok x ∧ Built sub x) ∧ Built rest r
  | _, _ => True

/-- All nested classes were declared with `validate=True`. -/
def Cls.AllValidate : Cls → Prop
  | .nil => True
  | .leaf _ _ rest => rest.AllValidate
  | .nested _ _ _ v sub rest => v = true ∧ sub.AllValidate ∧ rest.AllValidate

theorem deep_of_fields : ∀ (c : Cls) (v : Val), c.AllValidate → Built c v → FieldsFit c v → DeepFit c v
  | .nil, v, _, _, _ => by cases v <;> trivial
  | .leaf _ d rest, .arr _ a r, h, hb, hf => ⟨hf.1, deep_of_fields rest r h hb hf.2⟩
  | .leaf _ _ _, .nil, _, _, hf => hf.elim
  | .leaf _ _ _, .obj _ _ _ _, _, _, hf => hf.elim
  | .leaf _ _ _, .other _ _, _, _, hf => hf.elim
  | .nested _ ish cid v sub rest, .obj _ cid' x r, h, hb, hf => by
    obtain ⟨hc, hbx⟩ := hb.1 hf.1
    have hv := h.1
    subst hv
    have hsub : FieldsFit sub x := by
      apply Classical.byContradiction
      intro hn
      obtain ⟨e, he⟩ := (validated_constructor sub x).2 hn
      rw [he] at hc
      cases hc
    exact ⟨hf.1, deep_of_fields sub x h.2.1 hbx hsub, deep_of_fields rest r h.2.2 hb.2 hf.2⟩
  | .nested _ _ _ _ _ _, .nil, _, _, hf => hf.elim
  | .nested _ _ _ _ _ _, .arr _ _ _, _, _, hf => hf.elim
  | .nested _ _ _ _ _ _, .other _ _, _, _, hf => hf.elim

/-- **C54.**  When the class and all the classes nested in it validate, every instance that the constructor returns has fitting
array fields at every depth. -/
theorem validated_deep {c : Cls} {v : Val} (hc : c.AllValidate) (hb : Built c v) (h : construct true c v = .ok v) : DeepFit c v := by
  refine deep_of_fields c v hc hb ?_
  apply Classical.byContradiction
  intro hn
  obtain ⟨e, he⟩ := (validated_constructor c v).2 hn
  rw [he] at h
  cases h

/-- The instance has batch shape `b`: every array field has the declared dtype and shape `b ++ intrinsic`, a nested field has batch shape `b ++
intrinsic`. -/
def Shaped (b : List Nat) : Cls → Val → Prop
  | .nil, .nil => True
  | .leaf n d rest, .arr n' a r => n' = n ∧ a.dtype = d.dtype ∧ a.shape = b ++ d.ish ∧ a.data.length = Bitpack.size a.shape ∧ Shaped b rest r
  | .nested n ish cid _ sub rest, .obj n' cid' x r => n' = n ∧ cid' = cid ∧ Shaped (b ++ ish) sub x ∧ Shaped b rest r
  | _, _ => False

/-- No array field has a validator. -/
def Cls.NoValidator : Cls → Prop
  | .nil => True
  | .leaf _ d rest => d.validator = none ∧ rest.NoValidator
  | .nested _ _ _ _ sub rest => sub.NoValidator ∧ rest.NoValidator

theorem shaped_fit {b : List Nat} : ∀ (c : Cls) (v : Val), c.NoValidator → Shaped b c v → FieldsFit c v
  | .nil, .nil, _, _ => trivial
  | .leaf _ d rest, .arr _ a r, hv, h =>
    ⟨⟨h.2.1, ⟨b, h.2.2.1⟩, fun f hf => by rw [hv.1] at hf; cases hf⟩, shaped_fit rest r hv.2 h.2.2.2.2⟩
  | .nested _ _ _ _ _ rest, .obj _ _ _ r, hv, h => ⟨h.2.1, shaped_fit rest r hv.2 h.2.2.2⟩
  | .nil, .arr _ _ _, _, h => h.elim
  | .nil, .obj _ _ _ _, _, h => h.elim
  | .nil, .other _ _, _, h => h.elim
  | .leaf _ _ _, .nil, _, h => h.elim
  | .leaf _ _ _, .obj _ _ _ _, _, h => h.elim
  | .leaf _ _ _, .other _ _, _, h => h.elim
  | .nested _ _ _ _ _ _, .nil, _, h => h.elim
  | .nested _ _ _ _ _ _, .arr _ _ _, _, h => h.elim
  | .nested _ _ _ _ _ _, .other _ _, _, h => h.elim

theorem construct_shaped {b : List Nat} {v : Bool} {c : Cls} {x : Val} (hv : c.NoValidator) (h : Shaped b c x) : construct v c x = .ok x := by
  cases v
  · rfl
  · exact (validated_constructor c x).1 (shaped_fit c x hv h)

theorem default_go {conv : DType → Fv → Int} : ∀ (c : Cls) (b : List Nat), c.NoValidator → ∃ x, default.go conv c b = .ok x ∧ Shaped b c x
  | .nil, b, _ => ⟨.nil, rfl, trivial⟩
  | .leaf n d rest, b, hv => by
    obtain ⟨r, hr, hs⟩ := default_go (conv := conv) rest b hv.2
    refine ⟨.arr n (full conv (b ++ d.ish) (fillOf d (b ++ d.ish)) d.dtype) r, ?_, rfl, rfl, rfl, ?_, hs⟩
    · rw [default.go, hr]
    · simp [full]
  | .nested n ish cid v sub rest, b, hv => by
    obtain ⟨x, hx, hsx⟩ := default_go (conv := conv) sub (b ++ ish) hv.1
    obtain ⟨r, hr, hs⟩ := default_go (conv := conv) rest b hv.2
    refine ⟨.obj n cid x r, ?_, rfl, rfl, hsx, hs⟩
    rw [default.go, hx]
    simp only
    rw [construct_shaped hv.1 hsx]
    simp only
    rw [hr]

/-- **C54.**  `default(shape)` never fails validation (fields without user validators): it returns an instance whose batch shape is `shape`, with
the declared dtypes. -/
theorem default_validates (conv : DType → Fv → Int) (v : Bool) {c : Cls} (hv : c.NoValidator) (b : List Nat) :
    ∃ x, default conv v c b = .ok x ∧ Shaped b c x := by
  obtain ⟨x, hx, hs⟩ := default_go (conv := conv) c b hv
  refine ⟨x, ?_, hs⟩
  rw [default, hx]
  exact construct_shaped hv hs

/-! ### What it does not guarantee -/

def u8 (ish : List Nat) : FD := ⟨.uint 8, ish, some (.int 255), none, none, none, none, none, none⟩

/-- **Validation does not compare the batch shapes of the fields**: an UNSTRUCTURED instance is accepted. -/
theorem validation_batches_false : ∃ (c : Cls) (v : Val), construct true c v = .ok v ∧ ∀ b, ¬ Shaped b c v := by
  refine ⟨.leaf "a" (u8 []) (.leaf "b" (u8 [2]) .nil), .arr "a" ⟨.uint 8, [3], [1, 2, 3]⟩ (.arr "b" ⟨.uint 8, [2, 2], [1, 2, 3, 4]⟩ .nil), by rfl, ?_⟩
  intro b h
  obtain ⟨_, _, h1, _, _, _, h2, _⟩ := h
  have h1 : [3] = b ++ [] := h1
  have h2 : [2, 2] = b ++ [2] := h2
  rw [List.append_nil] at h1
  subst h1
  cases h2

/-- **Validation does not look into nested instances**: when the nested class does not validate itself, wrong dtypes inside it pass. -/
theorem validation_nested_false : ∃ (c : Cls) (v : Val), Built c v ∧ construct true c v = .ok v ∧ ¬ DeepFit c v := by
  refine ⟨.nested "in" [] 7 false (.leaf "a" (u8 []) .nil) .nil, .obj "in" 7 (.arr "a" ⟨.float 32, [], [0]⟩ .nil) .nil, ?_, by rfl, ?_⟩
  · exact ⟨fun _ => ⟨rfl, trivial⟩, trivial⟩
  · rintro ⟨_, ⟨⟨h, _⟩, _⟩, _⟩
    cases h

/-- Nor does it compare the batch shape of a nested instance with the intrinsic shape of the field, even if every class validates. -/
theorem validation_nested_shape_false : ∃ (c : Cls) (v : Val), c.AllValidate ∧ Built c v ∧ construct true c v = .ok v ∧ ∀ b, ¬ Shaped b c v := by
  refine ⟨.nested "in" [4] 7 true (.leaf "a" (u8 []) .nil) .nil, .obj "in" 7 (.arr "a" ⟨.uint 8, [3], [1, 2, 3]⟩ .nil) .nil, ⟨rfl, trivial, trivial⟩,
    ⟨fun _ => ⟨by rfl, trivial⟩, trivial⟩, by rfl, ?_⟩
  rintro b ⟨_, _, ⟨_, _, h, _⟩, _⟩
  have h : [3] = (b ++ [4]) ++ [] := h
  rw [List.append_nil] at h
  cases b with
  | nil => cases h
  | cons x b => simp at h

/-- `tree_map(f, x)`: the object is rebuilt attribute by attribute without its constructor (dataclass.py:185-193, 348-370). -/
def treeMap (f : Arr → Arr) : Val → Val
  | .nil => .nil
  | .arr n a r => .arr n (f a) (treeMap f r)
  | .obj n cid x r => .obj n cid (treeMap f x) (treeMap f r)
  | .other n r => .other n (treeMap f r)

/-- **Results of `tree_map` are not validated** (so neither are those of the `xnp` functions, `astype`, `jit`, `vmap`, …). -/
theorem tree_map_unvalidated : ∃ (c : Cls) (v : Val) (f : Arr → Arr), construct true c v = .ok v ∧ ∃ e, construct true c (treeMap f v) = .error e :=
  ⟨.leaf "a" (u8 []) .nil, .arr "a" ⟨.uint 8, [], [1]⟩ .nil, fun a => { a with dtype := .float 32 }, by rfl, .typeError, by rfl⟩

/-- Non-trivial cases: a nested class, a batch of two, a validator. -/
def demoFD : FD := { u8 [2] with validator := some fun a => a.data.all fun x => decide (x < 9) }
def demoCls : Cls := .leaf "a" demoFD (.nested "in" [3] 1 true (.leaf "x" (u8 []) .nil) .nil)
def demoVal : Val := .arr "a" ⟨.uint 8, [1, 2], [1, 2]⟩ (.obj "in" 1 (.arr "x" ⟨.uint 8, [1, 3], [1, 2, 3]⟩ .nil) .nil)

example : construct true demoCls demoVal = .ok demoVal := by rfl
example : demoCls.AllValidate ∧ Built demoCls demoVal := ⟨⟨rfl, trivial, trivial⟩, fun _ => ⟨by rfl, trivial⟩, trivial⟩
example : construct true demoCls (.arr "a" ⟨.uint 8, [1, 2], [1, 9]⟩ (.obj "in" 1 .nil .nil)) = .error .user := by rfl
example : construct true demoCls (.arr "a" ⟨.uint 8, [2, 1], [1, 2]⟩ (.obj "in" 1 .nil .nil)) = .error .valueError := by rfl
example : (Cls.leaf "a" (u8 [2]) (.nested "in" [3] 1 true (.leaf "x" (u8 []) .nil) .nil)).NoValidator := ⟨rfl, ⟨rfl, trivial⟩, trivial⟩

/-! ## C55: descriptors -/

/-- The descriptor was returned by the constructor. -/
def Made (d : FD) : Prop :=
  ∃ dtype ish fill bits packedBits udtype uish factory validator, init dtype ish fill bits packedBits udtype uish factory validator = .ok d

theorem bitsOk_iff {b : Option Int} : bitsOk b = true ↔ ∀ x, b = some x → 1 ≤ x ∧ x ≤ 32 := by
  cases b <;> simp [bitsOk]

/-- **C55.**  The constructor raises exactly when both a fill value and a factory are given, or `bits` or `packed_bits` is not within
1..32. -/
theorem init_raises_iff (dtype : DType) (ish : List Nat) (fill : Option Fv) (bits packedBits : Option Int) (udtype : Option DType) (uish : Option (List Nat))
    (factory : Option (List Nat → DType → Fv)) (validator : Option (Arr → Bool)) :
    (∃ e, init dtype ish fill bits packedBits udtype uish factory validator = .error e) ↔
      (fill ≠ none ∧ factory ≠ none) ∨ (∃ b, bits = some b ∧ ¬ (1 ≤ b ∧ b ≤ 32)) ∨ ∃ b, packedBits = some b ∧ ¬ (1 ≤ b ∧ b ≤ 32) := by
  have key : ∀ b : Option Int, bitsOk b = false ↔ ∃ x, b = some x ∧ ¬ (1 ≤ x ∧ x ≤ 32) := by
    intro b; cases b <;> simp [bitsOk]
  unfold init
  by_cases h1 : fill.isSome = true ∧ factory.isSome = true
  · rw [if_pos h1]
    refine ⟨fun _ => Or.inl ⟨?_, ?_⟩, fun _ => ⟨_, rfl⟩⟩
    · rintro rfl; cases h1.1
    · rintro rfl; cases h1.2
  · rw [if_neg h1]
    have h1' : ¬ (fill ≠ none ∧ factory ≠ none) := fun h => h1 ⟨Option.isSome_iff_ne_none.2 h.1, Option.isSome_iff_ne_none.2 h.2⟩
    by_cases h2 : bitsOk bits = false
    · rw [if_pos h2]
      exact ⟨fun _ => Or.inr (Or.inl ((key _).1 h2)), fun _ => ⟨_, rfl⟩⟩
    · rw [if_neg h2]
      by_cases h3 : bitsOk packedBits = false
      · rw [if_pos h3]
        exact ⟨fun _ => Or.inr (Or.inr ((key _).1 h3)), fun _ => ⟨_, rfl⟩⟩
      · rw [if_neg h3]
        refine ⟨fun ⟨e, he⟩ => (by cases he), ?_⟩
        rintro (h | h | h)
        · exact absurd h h1'
        · exact absurd ((key _).2 h) h2
        · exact absurd ((key _).2 h) h3

/-- What a descriptor made by the constructor satisfies: a fill value or a factory, never both; both bit counts within 1..32. -/
theorem made_facts {d : FD} (h : Made d) :
    (d.fill ≠ none ↔ d.factory = none) ∧ (∀ b, d.bits = some b → 1 ≤ b ∧ b ≤ 32) ∧ (∀ b, d.packedBits = some b → 1 ≤ b ∧ b ≤ 32) := by
  obtain ⟨dtype, ish, fill, bits, packedBits, udtype, uish, factory, validator, h⟩ := h
  unfold init at h
  by_cases h1 : fill.isSome = true ∧ factory.isSome = true
  · rw [if_pos h1] at h; cases h
  · rw [if_neg h1] at h
    by_cases h2 : bitsOk bits = false
    · rw [if_pos h2] at h; cases h
    · rw [if_neg h2] at h
      by_cases h3 : bitsOk packedBits = false
      · rw [if_pos h3] at h; cases h
      · rw [if_neg h3] at h
        cases h
        have k2 := bitsOk_iff.1 ((Bool.not_eq_false _).mp h2)
        have k3 := bitsOk_iff.1 ((Bool.not_eq_false _).mp h3)
        refine ⟨?_, ?_, ?_⟩
        · cases fill with
          | some v =>
            cases factory with
            | none => simp
            | some f => exact absurd ⟨rfl, rfl⟩ h1
          | none =>
            cases factory with
            | none => cases dtype <;> simp [defaultFill]
            | some f => simp
        · intro b hb
          cases bits with
          | none => cases hb
          | some x =>
            have := k2 x rfl
            simp only [Option.map_some, Option.some.injEq] at hb
            omega
        · intro b hb
          cases packedBits with
          | none => cases hb
          | some x =>
            have := k3 x rfl
            simp only [Option.map_some, Option.some.injEq] at hb
            omega

/-- The fill value and the factory of a clone. -/
def CloneFill (d : FD) (o : Over) (d' : FD) : Prop :=
  (o.fill = none → o.factory = none → d'.fill = d.fill ∧ d'.factory = d.factory) ∧
  (∀ v, o.fill = some (some v) → d'.fill = some v ∧ d'.factory = none) ∧
  (∀ f, o.factory = some (some f) → d'.fill = none ∧ d'.factory = some f) ∧
  (o.fill = some none ∨ o.factory = some none → d'.fill = defaultFill d'.dtype ∧ d'.factory = none)

/-- **C55.**  `clone_field_descriptor` (not given both a fill value and a factory) returns a descriptor that differs from the original in the
overridden attributes only. -/
theorem clone_spec {d : FD} (h : Made d) (o : Over) (ho : ¬ (o.fill ≠ none ∧ o.factory ≠ none)) :
    ∃ d', clone d o = .ok d' ∧ Made d' ∧ d'.dtype = o.dtype.getD d.dtype ∧ d'.ish = o.ish.getD d.ish ∧ d'.bits = d.bits ∧
      d'.packedBits = d.packedBits ∧ d'.udtype = d.udtype ∧ d'.uish = d.uish ∧ d'.validator = o.validator.getD d.validator ∧ CloneFill d o d' := by
  obtain ⟨hf, hb, hp⟩ := made_facts h
  have ho' : ¬ (o.fill.isSome = true ∧ o.factory.isSome = true) :=
    fun h => ho ⟨Option.isSome_iff_ne_none.1 h.1, Option.isSome_iff_ne_none.1 h.2⟩
  have b1 : bitsOk (d.bits.map Int.ofNat) = true := by
    cases hd : d.bits with
    | none => rfl
    | some x => have := hb x hd; simp only [bitsOk, Option.map_some, decide_eq_true_eq, Int.ofNat_eq_natCast]; omega
  have b2 : bitsOk (d.packedBits.map Int.ofNat) = true := by
    cases hd : d.packedBits with
    | none => rfl
    | some x => have := hp x hd; simp only [bitsOk, Option.map_some, decide_eq_true_eq, Int.ofNat_eq_natCast]; omega
  have mm : ∀ b : Option Nat, (b.map Int.ofNat).map Int.toNat = b := by intro b; cases b <;> simp
  have hi : ∀ (t : DType) (s : List Nat) (fl : Option Fv) (fa : Option (List Nat → DType → Fv)) (va : Option (Arr → Bool)), ¬ (fl ≠ none ∧ fa ≠ none) →
      init t s fl (d.bits.map Int.ofNat) (d.packedBits.map Int.ofNat) d.udtype d.uish fa va = .ok
        ⟨t, s, (match fl with
          | some v => some v
          | none => if fa.isSome then none else defaultFill t), d.bits, d.packedBits, d.udtype, d.uish, fa, va⟩ := by
    intro t s fl fa va hn
    unfold init
    rw [if_neg (fun h => hn ⟨Option.isSome_iff_ne_none.1 h.1, Option.isSome_iff_ne_none.1 h.2⟩), if_neg (by rw [b1]; decide),
      if_neg (by rw [b2]; decide), mm, mm]
    cases fl <;> rfl
  unfold clone
  rw [if_neg ho']
  unfold CloneFill
  rcases hof : o.fill with _ | v <;> rcases hoc : o.factory with _ | g <;> dsimp only
  · rw [hi _ _ _ _ _ (fun h => h.2 (hf.1 h.1))]
    refine ⟨_, rfl, ⟨_, _, _, _, _, _, _, _, _, hi (o.dtype.getD d.dtype) (o.ish.getD d.ish) d.fill d.factory (o.validator.getD d.validator) (fun h => h.2 (hf.1 h.1))⟩,
      rfl, rfl, rfl, rfl, rfl, rfl, rfl, fun _ _ => ⟨?_, rfl⟩, (by simp), (by simp), (by simp)⟩
    dsimp only
    cases hfl : d.fill with
    | some v => rfl
    | none =>
      cases hfa : d.factory with
      | some g => rfl
      | none => exact absurd hfl (hf.2 hfa)
  · rw [hi _ _ _ _ _ (fun h => h.1 rfl)]
    refine ⟨_, rfl, ⟨_, _, _, _, _, _, _, _, _, hi (o.dtype.getD d.dtype) (o.ish.getD d.ish) none g (o.validator.getD d.validator) (fun h => h.1 rfl)⟩,
      rfl, rfl, rfl, rfl, rfl, rfl, rfl, (by simp), (by simp), ?_, ?_⟩
    · intro f hf'
      cases hf'
      exact ⟨rfl, rfl⟩
    · rintro (h | h)
      · cases h
      · cases h
        exact ⟨rfl, rfl⟩
  · rw [hi _ _ _ _ _ (fun h => h.2 rfl)]
    refine ⟨_, rfl, ⟨_, _, _, _, _, _, _, _, _, hi (o.dtype.getD d.dtype) (o.ish.getD d.ish) v none (o.validator.getD d.validator) (fun h => h.2 rfl)⟩,
      rfl, rfl, rfl, rfl, rfl, rfl, rfl, (by simp), ?_, (by simp), ?_⟩
    · intro x hx
      cases hx
      exact ⟨rfl, rfl⟩
    · rintro (h | h)
      · cases h
        exact ⟨rfl, rfl⟩
      · cases h
  · exact absurd ⟨by rw [hof]; simp, by rw [hoc]; simp⟩ ho

/-- A clone without overrides is the descriptor itself. -/
theorem clone_id {d : FD} (h : Made d) : clone d {} = .ok d := by
  obtain ⟨d', h', _, h1, h2, h3, h4, h5, h6, h7, h8⟩ := clone_spec h {} (by simp)
  obtain ⟨h9, h10⟩ := h8.1 rfl rfl
  rw [h']
  cases d; cases d'
  simp_all

/-- **C55.**  `broadcast_intrinsic_shape(descriptor, batch)` changes the intrinsic shape to `batch ++ intrinsic_shape` and nothing else. -/
theorem broadcast_spec {d : FD} (h : Made d) (b : List Nat) : broadcastShape d b = .ok { d with ish := b ++ d.ish } := by
  obtain ⟨d', h', _, h1, h2, h3, h4, h5, h6, h7, h8⟩ := clone_spec h { ish := some (b ++ d.ish) } (by simp)
  obtain ⟨h9, h10⟩ := h8.1 rfl rfl
  unfold broadcastShape
  rw [h']
  cases d; cases d'
  simp_all

/-- `with_intrinsic_shape` likewise. -/
theorem with_shape_spec {d : FD} (h : Made d) (s : List Nat) : withShape d s = .ok { d with ish := s } := by
  obtain ⟨d', h', _, h1, h2, h3, h4, h5, h6, h7, h8⟩ := clone_spec h { ish := some s } (by simp)
  obtain ⟨h9, h10⟩ := h8.1 rfl rfl
  unfold withShape
  rw [h']
  cases d; cases d'
  simp_all

/-- `c'` is the class `c` with every descriptor broadcast by `b` (nested fields too). -/
def BroadcastOf (b : List Nat) : Cls → Cls → Prop
  | .nil, .nil => True
  | .leaf n d rest, .leaf n' d' rest' => n' = n ∧ broadcastShape d b = .ok d' ∧ BroadcastOf b rest rest'
  | .nested n ish cid v sub rest, .nested n' ish' cid' v' sub' rest' =>
    n' = n ∧ ish' = b ++ ish ∧ cid' = cid ∧ v' = v ∧ sub' = sub ∧ BroadcastOf b rest rest'
  | _, _ => False

/-- Every descriptor comes from the constructor. -/
def Cls.MadeAll : Cls → Prop
  | .nil => True
  | .leaf _ d rest => Made d ∧ rest.MadeAll
  | .nested _ _ _ _ sub rest => sub.MadeAll ∧ rest.MadeAll

theorem broadcast_go (conv : DType → Fv → Int) {b : List Nat} : ∀ (c c' : Cls) (s : List Nat), c.MadeAll → BroadcastOf b c c' →
    default.go conv c' s = default.go conv c (s ++ b)
  | .nil, .nil, _, _, _ => rfl
  | .leaf n d rest, .leaf n' d' rest', s, hm, h => by
    obtain ⟨rfl, hd, hr⟩ := h
    rw [broadcast_spec hm.1] at hd
    cases hd
    rw [default.go, default.go, broadcast_go conv rest rest' s hm.2 hr]
    simp only [fillOf, List.append_assoc]
  | .nested n ish cid v sub rest, .nested n' ish' cid' v' sub' rest', s, hm, h => by
    obtain ⟨rfl, rfl, rfl, rfl, rfl, hr⟩ := h
    rw [default.go, default.go, broadcast_go conv rest rest' s hm.2 hr]
    simp only [List.append_assoc]
  | .nil, .leaf _ _ _, _, _, h => h.elim
  | .nil, .nested _ _ _ _ _ _, _, _, h => h.elim
  | .leaf _ _ _, .nil, _, _, h => h.elim
  | .leaf _ _ _, .nested _ _ _ _ _ _, _, _, h => h.elim
  | .nested _ _ _ _ _ _, .nil, _, _, h => h.elim
  | .nested _ _ _ _ _ _, .leaf _ _ _, _, _, h => h.elim

theorem broadcast_noValidator {b : List Nat} : ∀ (c c' : Cls), c.MadeAll → BroadcastOf b c c' → c.NoValidator → c'.NoValidator
  | .nil, .nil, _, _, _ => trivial
  | .leaf n d rest, .leaf n' d' rest', hm, h, hv => by
    obtain ⟨rfl, hd, hr⟩ := h
    rw [broadcast_spec hm.1] at hd
    cases hd
    exact ⟨hv.1, broadcast_noValidator rest rest' hm.2 hr hv.2⟩
  | .nested n ish cid v sub rest, .nested n' ish' cid' v' sub' rest', hm, h, hv => by
    obtain ⟨rfl, rfl, rfl, rfl, rfl, hr⟩ := h
    exact ⟨hv.1, broadcast_noValidator rest rest' hm.2 hr hv.2⟩
  | .nil, .leaf _ _ _, _, h, _ => h.elim
  | .nil, .nested _ _ _ _ _ _, _, h, _ => h.elim
  | .leaf _ _ _, .nil, _, h, _ => h.elim
  | .leaf _ _ _, .nested _ _ _ _ _ _, _, h, _ => h.elim
  | .nested _ _ _ _ _ _, .nil, _, h, _ => h.elim
  | .nested _ _ _ _ _ _, .leaf _ _ _, _, h, _ => h.elim

/-- **C55.**  A class whose descriptors are the broadcast ones has the defaults of the original class with the batch in front:
`Batched.default(s)` holds the same arrays as `Original.default(s ++ batch)`, whether or not the two classes validate (fields without user
validators). -/
theorem broadcast_default (conv : DType → Fv → Int) {b : List Nat} {c c' : Cls} (s : List Nat) (v v' : Bool) (hm : c.MadeAll) (hv : c.NoValidator)
    (h : BroadcastOf b c c') : ∃ x, default conv v' c' s = .ok x ∧ default conv v c (s ++ b) = .ok x := by
  obtain ⟨x, hx, hs⟩ := default_go (conv := conv) c (s ++ b) hv
  obtain ⟨x', hx', hs'⟩ := default_go (conv := conv) c' s (broadcast_noValidator c c' hm h hv)
  have he := broadcast_go conv c c' s hm h
  rw [hx, hx'] at he
  cases he
  refine ⟨x, ?_, ?_⟩
  · rw [default, hx']; exact construct_shaped (broadcast_noValidator c c' hm h hv) hs'
  · rw [default, hx]; exact construct_shaped hv hs

/-- The two implementations of the byte count agree (field_descriptors.py:10-27, bitpack.py). -/
theorem packedNumBytes_eq_bitpack (n bits : Nat) : packedNumBytes n bits = Bitpack.packedNumBytes n bits := by
  unfold packedNumBytes Bitpack.packedNumBytes
  rfl

/-- **C55.**  `packed_tensor(shape, packed_bits)` reserves exactly the bytes that packing values of that shape produces. -/
theorem packed_tensor_storage {sh : List Nat} {bits : Nat} (h1 : 1 ≤ bits) (h32 : bits ≤ 32) (udtype : Option DType) :
    ∃ d, packedTensor udtype (some sh) none bits = .ok d ∧ d.uish = some sh ∧ d.packedBits = some bits ∧ d.bits = none ∧ d.dtype = .uint 8 ∧
      ∀ vals : List Int, vals.length = Bitpack.size sh → d.ish = [(Bitpack.toUint8 vals bits).length] := by
  unfold packedTensor
  simp only [Option.isSome_none, Bool.false_eq_true, false_and, if_false]
  unfold init
  rw [if_neg (by simp), if_neg (by simp [bitsOk]), if_neg (by simp only [bitsOk]; simp; omega)]
  refine ⟨_, rfl, rfl, by simp, rfl, rfl, ?_⟩
  intro vals hv
  rw [Bitpack.toUint8_length vals h1 h32, hv, ← packedNumBytes_eq_bitpack]
  simp

/-- A value of the dtype, for the integer dtypes. -/
def InDtype : DType → Int → Prop
  | .bool, v => 0 ≤ v ∧ v ≤ 1
  | .uint w, v => 0 ≤ v ∧ v < 2 ^ w
  | .int w, v => -2 ^ (w - 1) ≤ v ∧ v < 2 ^ (w - 1)
  | _, _ => True

/-- **C55.**  A descriptor without an explicit fill value gets one of its dtype: `False`, the largest unsigned value, 0, or infinity. -/
theorem default_fill_spec {dtype : DType} {ish : List Nat} {bits : Option Int} {d : FD} (h : tensor dtype ish bits none = .ok d) :
    d.fill = defaultFill dtype ∧ (∀ i, d.fill = some (.int i) → InDtype dtype i) ∧
    (∀ w, dtype = .uint w → d.fill = some (.int (2 ^ w - 1)) ∧ ∀ v, InDtype (.uint w) v → v ≤ 2 ^ w - 1) := by
  unfold tensor init at h
  rw [if_neg (by simp)] at h
  split at h
  · cases h
  · split at h
    · cases h
    · cases h
      refine ⟨rfl, ?_, ?_⟩
      · intro i hi
        cases dtype <;> simp only [Option.isSome_none, Bool.false_eq_true, if_false, defaultFill, Option.some.injEq, Fv.int.injEq, reduceCtorEq] at hi
        · subst hi
          rename_i w
          have : (0 : Int) < 2 ^ w := Int.pow_pos (by decide)
          exact ⟨by omega, by omega⟩
        · subst hi
          rename_i w
          have : (0 : Int) < 2 ^ (w - 1) := Int.pow_pos (by decide)
          exact ⟨by omega, this⟩
      · rintro w rfl
        exact ⟨rfl, fun v hv => by have := hv.2; omega⟩

/-- **`clone_field_descriptor(d, dtype=…)` keeps the fill value of the old dtype**: the default of a `uint32` field, cloned to `uint8`, is not
a `uint8`. -/
theorem clone_dtype_fill_false : ∃ d d' : FD, Made d ∧ scalar (.uint 32) none none = .ok d ∧ clone d { dtype := some (.uint 8) } = .ok d' ∧
    d'.dtype = .uint 8 ∧ d'.fill = some (.int 4294967295) ∧ ¬ InDtype d'.dtype 4294967295 := by
  refine ⟨⟨.uint 32, [], some (.int 4294967295), none, none, none, none, none, none⟩, ⟨.uint 8, [], some (.int 4294967295), none, none, none, none, none, none⟩,
    ⟨.uint 32, [], none, none, none, none, none, none, none, rfl⟩, rfl, rfl, rfl, rfl, ?_⟩
  intro h
  have := h.2
  omega

/-- Non-trivial cases. -/
example : Made { u8 [2] with bits := some 3 } := ⟨.uint 8, [2], none, some 3, none, none, none, none, none, rfl⟩
example : ∃ e, init (.uint 8) [] (some (.int 1)) none none none none (some fun _ _ => .int 2) none = .error e := ⟨_, rfl⟩
example : (packedTensor none (some [3, 5]) none 3).map (·.ish) = .ok [6] := by rfl
example : broadcastShape (u8 [2]) [4] = .ok (u8 [4, 2]) := by rfl
example : ∃ c', BroadcastOf [4] demoCls c' ∧ demoCls.MadeAll := by
  refine ⟨.leaf "a" { demoFD with ish := [4, 2] } (.nested "in" [4, 3] 1 true (.leaf "x" (u8 []) .nil) .nil), ⟨rfl, rfl, rfl, rfl, rfl, rfl, rfl, trivial⟩, ?_, ?_, trivial⟩
  · exact ⟨.uint 8, [2], none, none, none, none, none, none, _, rfl⟩
  · exact ⟨⟨.uint 8, [], none, none, none, none, none, none, none, rfl⟩, trivial⟩

end Desc
