import Verif.DescSpellModel

/-!
# C97: spellings of a field's dtype and shape
-/

namespace DescSpell

open Io (DType Arr)
open Desc (Err Fv Val Mode)
open SoA (BShape)

/-! ## The bracket syntax -/

/-- **C97.**  `FieldDescriptor[dtype]`, `[dtype, shape]`, `[dtype, fill]`, `[dtype, shape, fill]` mean the constructor call with these arguments, for
every dtype, every shape written as a tuple and every fill value that is not a tuple. -/
theorem bracket_spec (d : PyVal) (s : Option (List Nat)) (f : Option PyVal) (hf : ∀ v, f = some v → v.isTuple = false) :
    bracket (.tuple (d :: ((s.map PyVal.tup).toList ++ f.toList))) =
      .ok { dtype := d, shape := .tup (s.getD []), fill := f.getD .none } ∧
    bracket (.one d) = .ok { dtype := d, shape := .tup [], fill := .none } := by
  refine ⟨?_, rfl⟩
  cases s with
  | none =>
    cases f with
    | none => rfl
    | some v =>
      have := hf v rfl
      simp [bracket, this]
  | some l => cases f <;> rfl

/-- **C97.**  Any other number of arguments is refused. -/
theorem bracket_raises_iff (l : List PyVal) : bracket (.tuple l) = .error .valueError ↔ l.length = 0 ∨ 3 < l.length := by
  match l with
  | [] => exact ⟨fun _ => Or.inl rfl, fun _ => rfl⟩
  | [d] => exact ⟨fun h => by simp [bracket] at h, fun h => by simp at h⟩
  | [d, x] =>
    refine ⟨fun h => ?_, fun h => by simp at h⟩
    simp only [bracket] at h
    split at h <;> cases h
  | [d, s, f] => exact ⟨fun h => by simp [bracket] at h, fun h => by simp at h⟩
  | _ :: _ :: _ :: _ :: _ => exact ⟨fun _ => Or.inr (by simp), fun _ => rfl⟩

/-- **C97, finding.**  Two arguments whose second is not a tuple: it is the fill value, never the shape, also where it reads like a shape
(`FieldDescriptor[jnp.uint8, 3]`, `FieldDescriptor[jnp.uint8, [3]]`). -/
theorem bracket_int_false (d x : PyVal) (hx : x.isTuple = false) : bracket (.tuple [d, x]) = .ok { dtype := d, shape := .tup [], fill := x } := by
  simp [bracket, hx]

example : bracket (.tuple [.dt (.scalarType (.uint 8)), .fv (.int 3)]) =
    .ok { dtype := .dt (.scalarType (.uint 8)), shape := .tup [], fill := .fv (.int 3) } := rfl
example : bracket (.tuple [.dt (.scalarType (.uint 8)), .tup [3], .fv (.int 7)]) =
    .ok { dtype := .dt (.scalarType (.uint 8)), shape := .tup [3], fill := .fv (.int 7) } := rfl

/-! ## Which dtypes are accepted -/

/-- The dtypes of the array fields of the class itself. -/
def SCls.dts : SCls → List DtSpell
  | .nil => []
  | .leaf _ dt _ _ _ rest => dt :: rest.dts
  | .nested _ _ _ _ _ rest => rest.dts

theorem accepted_iff : ∀ c : SCls, accepted c = true ↔
    ∀ dt ∈ c.dts, (∃ t, dt = .scalarType t) ∨ dt = .complexType ∨ (∃ t, dt = .inst t) ∨ dt = .otherInst
  | .nil => by simp [accepted, SCls.dts]
  | .leaf _ dt _ _ _ rest => by
    rw [accepted, Bool.and_eq_true, accepted_iff rest]
    simp only [SCls.dts, List.mem_cons, forall_eq_or_imp]
    refine and_congr_left fun _ => ?_
    cases dt <;> simp [dtAccepted]
  | .nested _ _ _ _ _ rest => accepted_iff rest

/-- **C97.**  A class is refused with `TypeError` exactly when some array field has a dtype that is neither a number or bool scalar type nor a
`jnp.dtype` object — a string such as `"int32"`, another class, anything else (here without bit packing, so nothing else can go wrong). -/
theorem decorate_accepts (fuel : Nat) (c : SCls) :
    (decorate (fuel + 1) .off false c = .ok ⟨false, false⟩ ↔
      ∀ dt ∈ c.dts, (∃ t, dt = .scalarType t) ∨ dt = .complexType ∨ (∃ t, dt = .inst t) ∨ dt = .otherInst) ∧
    ((∃ dt ∈ c.dts, dt = .otherType ∨ (∃ t, dt = .str t) ∨ dt = .other) ↔ decorate (fuel + 1) .off false c = .error .typeError) := by
  have key : decorate (fuel + 1) .off false c = if accepted c then .ok ⟨false, false⟩ else .error .typeError := by
    have h1 : Desc.decorate (fuel + 1) .off false c.toCls = .ok ⟨false, false⟩ := by
      simp [Desc.decorate, Desc.effective]
    simp only [decorate, Desc.effective]
    by_cases h : accepted c = true
    · rw [if_pos h, if_pos h]
      simp [h1]
    · rw [if_neg h, if_neg h]
  have hiff := accepted_iff c
  constructor
  · rw [key, ← hiff]
    by_cases h : accepted c = true
    · rw [if_pos h]; exact ⟨fun _ => h, fun _ => rfl⟩
    · rw [if_neg h]; exact ⟨fun h' => (by cases h'), fun h' => absurd h' h⟩
  · rw [key]
    by_cases h : accepted c = true
    · rw [if_pos h]
      refine ⟨?_, fun h' => (by cases h')⟩
      rintro ⟨dt, hdt, hb⟩
      have := hiff.1 h dt hdt
      rcases hb with rfl | ⟨t, rfl⟩ | rfl <;> simp at this
    · rw [if_neg h]
      refine ⟨fun _ => rfl, fun _ => ?_⟩
      apply Classical.byContradiction
      intro hn
      refine h (hiff.2 fun dt hdt => ?_)
      cases dt with
      | scalarType t => exact Or.inl ⟨t, rfl⟩
      | complexType => exact Or.inr (Or.inl rfl)
      | inst t => exact Or.inr (Or.inr (Or.inl ⟨t, rfl⟩))
      | otherInst => exact Or.inr (Or.inr (Or.inr rfl))
      | otherType => exact absurd ⟨_, hdt, Or.inl rfl⟩ hn
      | str t => exact absurd ⟨_, hdt, Or.inr (Or.inl ⟨t, rfl⟩)⟩ hn
      | other => exact absurd ⟨_, hdt, Or.inr (Or.inr rfl)⟩ hn

/-! ## Shapes written as tuples -/

/-- Every shape at every level is a tuple. -/
def SCls.Tuples : SCls → Prop
  | .nil => True
  | .leaf _ _ sh _ _ rest => (∃ l, sh = .tup l) ∧ rest.Tuples
  | .nested _ sh _ _ sub rest => (∃ l, sh = .tup l) ∧ sub.Tuples ∧ rest.Tuples

/-- Every dtype at every level is one of the model, and one that JAX keeps. -/
def SCls.Kept (x64 : Bool) : SCls → Prop
  | .nil => True
  | .leaf _ dt _ _ _ rest => (∃ t, (dt = .scalarType t ∨ dt = .inst t) ∧ canon x64 t = t) ∧ rest.Kept x64
  | .nested _ _ _ _ sub rest => sub.Kept x64 ∧ rest.Kept x64

theorem kept_expected {dt : DtSpell} {t : DType} (h : dt = .scalarType t ∨ dt = .inst t) : expected dt = some t := by
  rcases h with rfl | rfl <;> rfl

/-- Every array of the instance itself has a dtype of JAX arrays. -/
def Canonical (x64 : Bool) : Val → Prop
  | .nil => True
  | .arr _ a r => canon x64 a.dtype = a.dtype ∧ Canonical x64 r
  | .obj _ _ _ r => Canonical x64 r
  | .other _ r => Canonical x64 r

theorem check_tuples {x64 : Bool} : ∀ (c : SCls) (x : Val), c.Tuples → c.Kept x64 → Canonical x64 x → check x64 c x = Desc.check c.toCls x
  | .nil, x, _, _, _ => by simp [check, SCls.toCls, Desc.check]
  | .leaf _ dt sh f b rest, .arr n a r, ht, hk, hx => by
    obtain ⟨⟨l, rfl⟩, ht⟩ := ht
    obtain ⟨⟨t, hdt, hc⟩, hk⟩ := hk
    simp only [check, SCls.toCls, Desc.check, Desc.runValidator]
    rw [check_tuples rest r ht hk hx.2]
    have : checkArr x64 dt (.tup l) a = Desc.checkArr
        { dtype := (expected dt).getD .bool, ish := l, fill := fillOf dt f, bits := b, packedBits := none, udtype := none, uish := none,
          factory := none, validator := none } a := by
      simp only [checkArr, Desc.checkArr, kept_expected hdt, Option.getD_some, hx.1]
    rw [this]
    rfl
  | .leaf _ _ _ _ _ _, .nil, _, _, _ => rfl
  | .leaf _ _ _ _ _ _, .obj _ _ _ _, _, _, _ => rfl
  | .leaf _ _ _ _ _ _, .other _ _, _, _, _ => rfl
  | .nested _ sh cid v sub rest, .obj _ cid' x r, ht, hk, hx => by
    simp only [check, SCls.toCls, Desc.check]
    rw [check_tuples rest r ht.2.2 hk.2 hx]
  | .nested _ _ _ _ _ _, .nil, _, _, _ => rfl
  | .nested _ _ _ _ _ _, .arr _ _ _, _, _, _ => rfl
  | .nested _ _ _ _ _ _, .other _ _, _, _, _ => rfl

theorem construct_tuples {x64 v : Bool} {c : SCls} {x : Val} (ht : c.Tuples) (hk : c.Kept x64) (hx : Canonical x64 x) :
    construct x64 v c x = Desc.construct v c.toCls x := by
  simp only [construct, Desc.construct, check_tuples c x ht hk hx]
  rfl

theorem default_go_canonical {x64 : Bool} {conv : DType → Fv → Int} : ∀ (c : SCls) (b : List Nat) (x : Val), c.Kept x64 →
    Desc.default.go conv c.toCls b = .ok x → Canonical x64 x
  | .nil, b, x, _, h => by cases h; trivial
  | .leaf n dt sh f bi rest, b, x, hk, h => by
    obtain ⟨⟨t, hdt, hc⟩, hk⟩ := hk
    simp only [SCls.toCls, Desc.default.go] at h
    split at h
    · cases h
    · rename_i r hr
      cases h
      refine ⟨?_, default_go_canonical rest b r hk hr⟩
      simp only [Desc.full, kept_expected hdt, Option.getD_some, hc]
  | .nested n sh cid v sub rest, b, x, hk, h => by
    simp only [SCls.toCls, Desc.default.go] at h
    split at h
    · cases h
    · split at h
      · cases h
      · split at h
        · cases h
        · rename_i r hr
          cases h
          exact default_go_canonical rest b r hk.2 hr

theorem defaultFields_tuples {x64 : Bool} {conv : DType → Fv → Int} : ∀ (c : SCls) (b : List Nat), c.Tuples → c.Kept x64 →
    defaultFields x64 (fun t v => some (conv t v)) c (some b) = Desc.default.go conv c.toCls b
  | .nil, b, _, _ => rfl
  | .leaf n dt sh f bi rest, b, ht, hk => by
    obtain ⟨⟨l, rfl⟩, ht⟩ := ht
    obtain ⟨⟨t, hdt, hc⟩, hk⟩ := hk
    simp only [defaultFields, SCls.toCls, Desc.default.go, defaultFields_tuples rest b ht hk, wrapShape, Option.bind_some, Option.map_some]
    have hne : dt ≠ .complexType := by rcases hdt with rfl | rfl <;> simp
    have hfill : ∃ v, fillOf dt f = some v := by
      simp only [fillOf]
      cases f with
      | some v => exact ⟨v, rfl⟩
      | none =>
        simp only [kept_expected hdt, Option.bind_some]
        cases t <;> exact ⟨_, rfl⟩
    obtain ⟨v, hv⟩ := hfill
    have hfull : full x64 (fun t v => some (conv t v)) (some (b ++ l)) dt (fillOf dt f) =
        .ok (Desc.full conv (b ++ l) v t) := by
      simp only [full, hv, if_neg hne, kept_expected hdt, hc, Desc.full]
    rw [hfull]
    simp only
    generalize Desc.default.go conv rest.toCls b = R
    cases R with
    | error e => rfl
    | ok r => simp only [ShSpell.meant, Desc.fillOf, kept_expected hdt, Option.getD_some, hv]
  | .nested n sh cid v sub rest, b, ht, hk => by
    obtain ⟨⟨l, rfl⟩, hts, htr⟩ := ht
    simp only [defaultFields, SCls.toCls, Desc.default.go, wrapShape, Option.bind_some, Option.map_some,
      defaultFields_tuples sub (b ++ l) hts hk.1, defaultFields_tuples rest b htr hk.2, ShSpell.meant]
    cases hR : Desc.default.go conv sub.toCls (b ++ l) with
    | error e => rfl
    | ok x =>
      simp only [construct_tuples hts hk.1 (default_go_canonical sub (b ++ l) x hk.1 hR)]
      rfl

theorem randomFields_canonical {K : Type} {x64 : Bool} {g : Desc.Rng K} : ∀ (c : SCls) (b : List Nat) (k : K) (n i : Nat) (x : Val), c.Kept x64 →
    Desc.randomFields g c.toCls b k n i = .ok x → Canonical x64 x
  | .nil, b, k, n, i, x, _, h => by cases h; trivial
  | .leaf nm dt sh f bi rest, b, k, n, i, x, hk, h => by
    obtain ⟨⟨t, hdt, hc⟩, hk⟩ := hk
    simp only [SCls.toCls, Desc.randomFields] at h
    split at h
    · cases h
    · rename_i r hr
      cases h
      refine ⟨?_, randomFields_canonical rest b k n (i + 1) r hk hr⟩
      simp only [kept_expected hdt, Option.getD_some]
      cases t <;> exact hc
  | .nested nm sh cid v sub rest, b, k, n, i, x, hk, h => by
    simp only [SCls.toCls, Desc.randomFields] at h
    split at h
    · cases h
    · split at h
      · cases h
      · split at h
        · cases h
        · rename_i r hr
          cases h
          exact randomFields_canonical rest b k n (i + 1) r hk.2 hr

theorem width_toCls : ∀ c : SCls, c.toCls.width = c.width
  | .nil => rfl
  | .leaf _ _ _ _ _ rest => congrArg (· + 1) (width_toCls rest)
  | .nested _ _ _ _ _ rest => congrArg (· + 1) (width_toCls rest)

theorem randomFields_tuples {K : Type} {x64 : Bool} {g : Desc.Rng K} : ∀ (c : SCls) (b : List Nat) (k : K) (n i : Nat), c.Tuples → c.Kept x64 →
    randomFields x64 g c b k n i = Desc.randomFields g c.toCls b k n i
  | .nil, _, _, _, _, _, _ => rfl
  | .leaf nm dt sh f bi rest, b, k, n, i, ht, hk => by
    obtain ⟨⟨l, rfl⟩, ht⟩ := ht
    obtain ⟨⟨t, hdt, hc⟩, hk⟩ := hk
    simp only [randomFields, SCls.toCls, Desc.randomFields, wrapShape, kept_expected hdt, randomFields_tuples rest b k n (i + 1) ht hk, hc,
      Option.getD_some, ShSpell.meant]
    rfl
  | .nested nm sh cid v sub rest, b, k, n, i, ht, hk => by
    obtain ⟨⟨l, rfl⟩, hts, htr⟩ := ht
    simp only [randomFields, SCls.toCls, Desc.randomFields, ShSpell.meant, width_toCls,
      randomFields_tuples sub (b ++ l) (g.split k n i) sub.width 0 hts hk.1, randomFields_tuples rest b k n (i + 1) htr hk.2]
    cases hR : Desc.randomFields g sub.toCls (b ++ l) (g.split k n i) sub.width 0 with
    | error e => rfl
    | ok x =>
      simp only [construct_tuples hts hk.1 (randomFields_canonical sub _ _ _ _ x hk.1 hR)]
      rfl

theorem allBits_tuples : ∀ c : SCls, c.Tuples → allBits c = .ok (Desc.allBits c.toCls)
  | .nil, _ => rfl
  | .leaf _ _ _ _ bits rest, ht => by
    simp only [allBits, SCls.toCls, Desc.allBits]
    cases bits with
    | none => rfl
    | some b => simpa using allBits_tuples rest ht.2
  | .nested _ sh _ _ sub rest, ht => by
    obtain ⟨⟨l, rfl⟩, hts, htr⟩ := ht
    simp only [allBits, SCls.toCls, Desc.allBits, asTuple, ShSpell.meant, allBits_tuples sub hts]
    by_cases h : l = []
    · rw [if_pos h]
      cases Desc.allBits sub.toCls with
      | false => simp
      | true => simpa [h] using allBits_tuples rest htr
    · rw [if_neg h]; simp [h]

theorem aggCheck_tuples : ∀ c : SCls, c.Tuples → aggCheck c = Desc.aggCheck c.toCls
  | .nil, _ => rfl
  | .leaf _ _ _ _ bits rest, ht => by
    obtain ⟨⟨l, rfl⟩, ht⟩ := ht
    simp only [aggCheck, SCls.toCls, Desc.aggCheck, asTuple, aggCheck_tuples rest ht]
  | .nested _ sh _ _ sub rest, ht => by
    obtain ⟨⟨l, rfl⟩, hts, htr⟩ := ht
    simp only [aggCheck, SCls.toCls, Desc.aggCheck, asTuple, ShSpell.meant, aggCheck_tuples sub hts, aggCheck_tuples rest htr]
    rfl

theorem accepted_of_kept {x64 : Bool} : ∀ c : SCls, c.Kept x64 → accepted c = true
  | .nil, _ => rfl
  | .leaf _ dt _ _ _ rest, h => by
    obtain ⟨⟨t, hdt, _⟩, h⟩ := h
    rw [accepted, accepted_of_kept rest h]
    rcases hdt with rfl | rfl <;> rfl
  | .nested _ _ _ _ _ rest, h => accepted_of_kept rest h.2

/-- **C97.**  A class whose shapes are tuples and whose dtypes are scalar types or dtype objects that JAX keeps: decoration, `default`, `random`
and validated construction do what C54–C57 describe for the dtypes and shapes meant, whichever of the two ways the dtypes are written. -/
theorem tuple_spelling (x64 : Bool) {c : SCls} (ht : c.Tuples) (hk : c.Kept x64) :
    (∀ conv v b, default x64 (fun t f => some (conv t f)) v c b = Desc.default conv v c.toCls b) ∧
    (∀ (K : Type) (g : Desc.Rng K) v b k, random x64 g v c b k = Desc.random g v c.toCls b k) ∧
    (∀ v x, Canonical x64 x → construct x64 v c x = Desc.construct v c.toCls x) ∧
    (∀ fuel mode flag, decorate (fuel + 1) mode flag c = Desc.decorate (fuel + 1) mode flag c.toCls) := by
  refine ⟨fun conv v b => ?_, fun K g v b k => ?_, fun v x hx => construct_tuples ht hk hx, fun fuel mode flag => ?_⟩
  · simp only [default, Desc.default, defaultFields_tuples c b ht hk]
    cases hR : Desc.default.go conv c.toCls b with
    | error e => rfl
    | ok x => exact construct_tuples ht hk (default_go_canonical c b x hk hR)
  · simp only [random, Desc.random, randomFields_tuples c b k c.width 0 ht hk, width_toCls]
    cases hR : Desc.randomFields g c.toCls b k c.width 0 with
    | error e => rfl
    | ok x => exact construct_tuples ht hk (randomFields_canonical c _ _ _ _ x hk hR)
  · simp only [decorate]
    simp only [accepted_of_kept c hk, if_true, allBits_tuples c ht, aggCheck_tuples c ht]
    cases hm : Desc.effective mode flag with
    | error e => simp [Desc.decorate, hm]
    | ok m =>
      simp only [Desc.decorate, hm, width_toCls]
      by_cases hw : c.width ≠ 0 ∧ m = .auto
      · rw [if_pos hw]
        simp only [hw.1, hw.2]
        cases hb : Desc.allBits c.toCls with
        | false => simp
        | true =>
          simp [hw.1]
          cases Desc.aggCheck c.toCls <;> rfl
      · rw [if_neg hw]
        by_cases hm' : m = .aggregate
        · subst hm'
          simp
          cases Desc.aggCheck c.toCls <;> rfl
        · simp [hm']

/-! ### What a class with tuples tells about its instances -/

/-- `Shaped`, for a class as it is written: every array has shape `b ++ shape meant`. -/
def Shaped (b : List Nat) : SCls → Val → Prop
  | .nil, .nil => True
  | .leaf _ _ sh _ _ rest, .arr _ a r => a.shape = b ++ sh.meant ∧ Shaped b rest r
  | .nested _ sh _ _ sub rest, .obj _ _ x r => Shaped (b ++ sh.meant) sub x ∧ Shaped b rest r
  | _, _ => False

theorem fieldBatch_append (l b : List Nat) : SoA.fieldBatch l (b ++ l) = .tup b := by
  unfold SoA.fieldBatch
  by_cases h : l = []
  · subst h; simp
  · rw [if_neg h]; simp

theorem finalBatch_replicate (b : BShape) (hb : b ≠ .unstr) : ∀ n, SoA.finalBatch (List.replicate (n + 1) b) = b
  | 0 => rfl
  | n + 1 => by
    have ih := finalBatch_replicate b hb n
    simp only [SoA.finalBatch, List.replicate_succ, List.foldl_cons] at ih ⊢
    simp only [hb, ne_eq, not_true_eq_false, or_self, if_false]
    exact ih

/-- Every nested class at every level has a field. -/
def SCls.NoEmpty : SCls → Prop
  | .nil => True
  | .leaf _ _ _ _ _ rest => rest.NoEmpty
  | .nested _ _ _ _ sub rest => sub.width ≠ 0 ∧ sub.NoEmpty ∧ rest.NoEmpty

theorem fieldBatches_tuples : ∀ (c : SCls) (b : List Nat) (x : Val), c.Tuples → c.NoEmpty → Shaped b c x →
    fieldBatches c x = .ok (List.replicate c.width (.tup b))
  | .nil, _, .nil, _, _, _ => rfl
  | .leaf _ _ sh _ _ rest, b, .arr _ a r, ht, he, hx => by
    obtain ⟨⟨l, rfl⟩, ht⟩ := ht
    simp only [fieldBatches, fieldBatch, fieldBatches_tuples rest b r ht he hx.2, hx.1, ShSpell.meant, fieldBatch_append, SCls.width,
      List.replicate_succ]
  | .nested _ sh _ _ sub rest, b, .obj _ _ x r, ht, he, hx => by
    obtain ⟨⟨l, rfl⟩, hts, htr⟩ := ht
    obtain ⟨m, hm⟩ : ∃ m, sub.width = m + 1 := ⟨sub.width - 1, by have := he.1; omega⟩
    have hx1 : Shaped (b ++ l) sub x := hx.1
    have hf := finalBatch_replicate (.tup (b ++ l)) (fun h => (by cases h)) m
    simp only [fieldBatches, fieldBatches_tuples sub (b ++ l) x hts he.2.1 hx1, hm, hf,
      nestedBatch, SoA.nestedBatch, fieldBatch_append, fieldBatches_tuples rest b r htr he.2.2 hx.2, SCls.width]
    rfl
  | .nil, _, .arr _ _ _, _, _, h => h.elim
  | .nil, _, .obj _ _ _ _, _, _, h => h.elim
  | .nil, _, .other _ _, _, _, h => h.elim
  | .leaf _ _ _ _ _ _, _, .nil, _, _, h => h.elim
  | .leaf _ _ _ _ _ _, _, .obj _ _ _ _, _, _, h => h.elim
  | .leaf _ _ _ _ _ _, _, .other _ _, _, _, h => h.elim
  | .nested _ _ _ _ _ _, _, .nil, _, _, h => h.elim
  | .nested _ _ _ _ _ _, _, .arr _ _ _, _, _, h => h.elim
  | .nested _ _ _ _ _ _, _, .other _ _, _, _, h => h.elim

/-- **C97.**  With shapes written as tuples, an instance whose arrays have shape `b ++ intrinsic` reports the batch shape `b`. -/
theorem tuple_batchShape {c : SCls} {b : List Nat} {x : Val} (ht : c.Tuples) (he : c.NoEmpty) (hw : c.width ≠ 0) (hx : Shaped b c x) :
    batchShape c x = .ok (.tup b) := by
  obtain ⟨m, hm⟩ : ∃ m, c.width = m + 1 := ⟨c.width - 1, by omega⟩
  simp only [batchShape, fieldBatches_tuples c b x ht he hx, hm, finalBatch_replicate (.tup b) (fun h => (by cases h))]

/-! ## Shapes written as an integer -/

/-- No shape at any level is a list. -/
def SCls.NoList : SCls → Prop
  | .nil => True
  | .leaf _ _ sh _ _ rest => (∀ l, sh ≠ .lst l) ∧ rest.NoList
  | .nested _ sh _ _ sub rest => (∀ l, sh ≠ .lst l) ∧ sub.NoList ∧ rest.NoList

/-- No nested class was declared with `validate=True`. -/
def SCls.Unvalidated : SCls → Prop
  | .nil => True
  | .leaf _ _ _ _ _ rest => rest.Unvalidated
  | .nested _ _ _ v sub rest => v = false ∧ sub.Unvalidated ∧ rest.Unvalidated

theorem wrap_meant {sh : ShSpell} (h : ∀ l, sh ≠ .lst l) : wrapShape sh = wrapShape (.tup sh.meant) := by
  cases sh with
  | tup l => rfl
  | int n => rfl
  | lst l => exact absurd rfl (h l)

/-- **C97.**  Without validation, `default` gives a shape written as an integer `n` the meaning `(n,)`. -/
theorem default_int (x64 : Bool) (conv : DType → Fv → Option Int) : ∀ (c : SCls) (b : Option (List Nat)), c.NoList → c.Unvalidated →
    defaultFields x64 conv c b = defaultFields x64 conv c.norm b
  | .nil, _, _, _ => rfl
  | .leaf _ dt sh f _ rest, b, hl, hu => by
    simp only [defaultFields, SCls.norm, wrap_meant hl.1, default_int x64 conv rest b hl.2 hu]
  | .nested _ sh _ v sub rest, b, hl, hu => by
    obtain ⟨rfl, hus, hur⟩ := hu
    simp only [defaultFields, SCls.norm, wrap_meant hl.1, default_int x64 conv sub _ hl.2.1 hus, default_int x64 conv rest b hl.2.2 hur, construct]
    rfl

/-- Some field, at some level, has its shape written as an integer. -/
def SCls.HasInt : SCls → Prop
  | .nil => False
  | .leaf _ _ sh _ _ rest => (∃ n, sh = .int n) ∨ rest.HasInt
  | .nested _ sh _ _ sub rest => (∃ n, sh = .int n) ∨ sub.HasInt ∨ rest.HasInt

theorem fieldBatches_int : ∀ (c : SCls) (x : Val), c.HasInt → fieldBatches c x = .error .typeError
  | .leaf _ _ sh _ _ rest, .arr _ a r, h => by
    simp only [fieldBatches]
    rcases h with ⟨n, rfl⟩ | h
    · rfl
    · rw [fieldBatches_int rest r h]
      cases sh <;> rfl
  | .nested _ sh _ _ sub rest, .obj _ _ x r, h => by
    simp only [fieldBatches]
    rcases h with ⟨n, rfl⟩ | h | h
    · cases hs : fieldBatches sub x with
      | ok l => rfl
      | error e =>
        simp only
        exact congrArg _ (fieldBatches_err sub x hs)
    · rw [fieldBatches_int sub x h]
    · cases hs : fieldBatches sub x with
      | error e => exact congrArg _ (fieldBatches_err sub x hs)
      | ok l =>
        simp only [fieldBatches_int rest r h]
        cases hn : nestedBatch sh (SoA.finalBatch l) with
        | ok b => rfl
        | error e => exact congrArg _ (nestedBatch_err hn)
  | .leaf _ _ _ _ _ _, .nil, _ => rfl
  | .leaf _ _ _ _ _ _, .obj _ _ _ _, _ => rfl
  | .leaf _ _ _ _ _ _, .other _ _, _ => rfl
  | .nested _ _ _ _ _ _, .nil, _ => rfl
  | .nested _ _ _ _ _ _, .arr _ _ _, _ => rfl
  | .nested _ _ _ _ _ _, .other _ _, _ => rfl
where
  nestedBatch_err {sh : ShSpell} {b : BShape} {e : Err} (h : nestedBatch sh b = .error e) : e = .typeError := by
    cases sh with
    | tup l =>
      simp only [nestedBatch] at h
      cases hb : SoA.nestedBatch l b with
      | none => rw [hb] at h; cases h; rfl
      | some b' => rw [hb] at h; cases h
    | int n => cases h; rfl
    | lst l => cases b <;> cases h; rfl
  fieldBatches_err : ∀ (c : SCls) (x : Val) {e : Err}, fieldBatches c x = .error e → e = .typeError
    | .nil, _, e, h => by cases h
    | .leaf _ _ sh _ _ rest, .arr _ a r, e, h => by
      simp only [fieldBatches] at h
      cases hf : fieldBatch sh a.shape with
      | error e' => rw [hf] at h; cases h; cases sh <;> cases hf; rfl
      | ok b =>
        rw [hf] at h
        cases hr : fieldBatches rest r with
        | error e' => rw [hr] at h; cases h; exact fieldBatches_err rest r hr
        | ok l => rw [hr] at h; cases h
    | .nested _ sh _ _ sub rest, .obj _ _ x r, e, h => by
      simp only [fieldBatches] at h
      cases hs : fieldBatches sub x with
      | error e' => rw [hs] at h; cases h; exact fieldBatches_err sub x hs
      | ok l =>
        rw [hs] at h
        simp only at h
        cases hn : nestedBatch sh (SoA.finalBatch l) with
        | error e' => rw [hn] at h; cases h; exact nestedBatch_err hn
        | ok b =>
          rw [hn] at h
          cases hr : fieldBatches rest r with
          | error e' => rw [hr] at h; cases h; exact fieldBatches_err rest r hr
          | ok l => rw [hr] at h; cases h
    | .leaf _ _ _ _ _ _, .nil, e, h => by cases h; rfl
    | .leaf _ _ _ _ _ _, .obj _ _ _ _, e, h => by cases h; rfl
    | .leaf _ _ _ _ _ _, .other _ _, e, h => by cases h; rfl
    | .nested _ _ _ _ _ _, .nil, e, h => by cases h; rfl
    | .nested _ _ _ _ _ _, .arr _ _ _, e, h => by cases h; rfl
    | .nested _ _ _ _ _ _, .other _ _, e, h => by cases h; rfl

/-- The class itself has an array field with that dtype and shape. -/
def SCls.HasLeaf (p : DtSpell → ShSpell → Prop) : SCls → Prop
  | .nil => False
  | .leaf _ dt sh _ _ rest => p dt sh ∨ rest.HasLeaf p
  | .nested _ _ _ _ _ rest => rest.HasLeaf p

theorem check_leaf_raises {x64 : Bool} {p : DtSpell → ShSpell → Prop} (hp : ∀ dt sh a, p dt sh → ∃ e, checkArr x64 dt sh a = .error e) :
    ∀ (c : SCls) (x : Val), c.HasLeaf p → ∃ e, check x64 c x = .error e
  | .leaf _ dt sh _ _ rest, .arr _ a r, h => by
    simp only [check]
    rcases h with h | h
    · obtain ⟨e, he⟩ := hp dt sh a h
      exact ⟨e, by rw [he]⟩
    · obtain ⟨e, he⟩ := check_leaf_raises hp rest r h
      cases checkArr x64 dt sh a with
      | error e => exact ⟨e, rfl⟩
      | ok _ => exact ⟨e, he⟩
  | .nested _ _ cid _ _ rest, .obj _ cid' _ r, h => by
    simp only [check]
    by_cases hc : cid' = cid
    · rw [if_pos hc]; exact check_leaf_raises hp rest r h
    · rw [if_neg hc]; exact ⟨_, rfl⟩
  | .leaf _ _ _ _ _ _, .nil, _ => ⟨_, rfl⟩
  | .leaf _ _ _ _ _ _, .obj _ _ _ _, _ => ⟨_, rfl⟩
  | .leaf _ _ _ _ _ _, .other _ _, _ => ⟨_, rfl⟩
  | .nested _ _ _ _ _ _, .nil, _ => ⟨_, rfl⟩
  | .nested _ _ _ _ _ _, .arr _ _ _, _ => ⟨_, rfl⟩
  | .nested _ _ _ _ _ _, .other _ _, _ => ⟨_, rfl⟩

theorem construct_leaf_raises {x64 : Bool} {p : DtSpell → ShSpell → Prop} (hp : ∀ dt sh a, p dt sh → ∃ e, checkArr x64 dt sh a = .error e)
    {c : SCls} (h : c.HasLeaf p) (x : Val) : ∃ e, construct x64 true c x = .error e := by
  obtain ⟨e, he⟩ := check_leaf_raises hp c x h
  exact ⟨e, by simp [construct, he]⟩

/-- If construction always raises, so do `default` and `random`. -/
theorem default_of_construct {x64 v : Bool} {c : SCls} (h : ∀ x, ∃ e, construct x64 v c x = .error e) (conv : DType → Fv → Option Int) (b : List Nat) :
    ∃ e, default x64 conv v c b = .error e := by
  simp only [default]
  cases defaultFields x64 conv c (some b) with
  | error e => exact ⟨e, rfl⟩
  | ok x => exact h x

theorem random_of_construct {K : Type} {x64 v : Bool} {c : SCls} (h : ∀ x, ∃ e, construct x64 v c x = .error e) (g : Desc.Rng K) (b : List Nat) (k : K) :
    ∃ e, random x64 g v c b k = .error e := by
  simp only [random]
  cases randomFields x64 g c b k c.width 0 with
  | error e => exact ⟨e, rfl⟩
  | ok x => exact h x

theorem aggCheck_int : ∀ c : SCls, allBits c = .ok true → c.HasInt → aggCheck c = .error .typeError
  | .leaf _ _ sh _ bits rest, hb, h => by
    simp only [allBits] at hb
    by_cases hs : bits.isSome = true
    · rw [if_pos hs] at hb
      simp only [aggCheck, if_pos hs]
      rcases h with ⟨n, rfl⟩ | h
      · rfl
      · cases sh with
        | int n => rfl
        | tup l => exact aggCheck_int rest hb h
        | lst l => exact aggCheck_int rest hb h
    · rw [if_neg hs] at hb; cases hb
  | .nested _ sh _ _ sub rest, hb, h => by
    simp only [allBits] at hb
    simp only [aggCheck]
    cases hsh : asTuple sh with
    | error e => rw [hsh] at hb; cases hb
    | ok l =>
      rw [hsh] at hb
      simp only at hb ⊢
      by_cases hl : l = []
      · rw [if_pos hl] at hb ⊢
        cases hs : allBits sub with
        | error e => rw [hs] at hb; cases hb
        | ok v =>
          rw [hs] at hb
          cases v with
          | false => cases hb
          | true =>
            have hb' : allBits rest = .ok true := hb
            rcases h with ⟨n, rfl⟩ | h | h
            · cases hsh
            · rw [aggCheck_int sub hs h]
            · cases ha : aggCheck sub with
              | error e =>
                simp only
                refine congrArg _ ?_
                exact aggCheck_err sub hs ha
              | ok _ => exact aggCheck_int rest hb' h
      · rw [if_neg hl] at hb; cases hb
where
  aggCheck_err : ∀ (c : SCls) {e : Err}, allBits c = .ok true → aggCheck c = .error e → e = .typeError
    | .nil, e, _, h => by cases h
    | .leaf _ _ sh _ bits rest, e, hb, h => by
      simp only [allBits] at hb
      by_cases hs : bits.isSome = true
      · rw [if_pos hs] at hb
        simp only [aggCheck, if_pos hs] at h
        cases sh with
        | int n => cases h; rfl
        | tup l => exact aggCheck_err rest hb h
        | lst l => exact aggCheck_err rest hb h
      · rw [if_neg hs] at hb; cases hb
    | .nested _ sh _ _ sub rest, e, hb, h => by
      simp only [allBits] at hb
      simp only [aggCheck] at h
      cases hsh : asTuple sh with
      | error e => rw [hsh] at hb; cases hb
      | ok l =>
        rw [hsh] at hb h
        simp only at hb h
        by_cases hl : l = []
        · rw [if_pos hl] at hb h
          cases hs : allBits sub with
          | error e => rw [hs] at hb; cases hb
          | ok v =>
            rw [hs] at hb
            cases v with
            | false => cases hb
            | true =>
              have hb' : allBits rest = .ok true := hb
              cases ha : aggCheck sub with
              | error e' => rw [ha] at h; cases h; exact aggCheck_err sub hs ha
              | ok _ => rw [ha] at h; exact aggCheck_err rest hb' h
        · rw [if_neg hl] at hb; cases hb

/-- **C97, finding.**  A shape written as an integer `n` is not `(n,)`:
(1) if any field at any level has one, `x.shape` — hence `batch_shape`, `len`, `ndim`, `structured_type` — raises `TypeError` on every instance;
(2) if an array field of the class has one, `validate=True` refuses every instance, so `default` and `random` raise;
(3) `random` raises if a nested field of the class has one and comes first;
(4) if every array field has `bits` the class cannot be declared with `bitpack="auto"`. -/
theorem int_spelling_false :
    (∀ (c : SCls) (x : Val), c.HasInt → batchShape c x = .error .typeError) ∧
    (∀ (x64 : Bool) (c : SCls), c.HasLeaf (fun _ sh => ∃ n, sh = .int n) →
      (∀ x, ∃ e, construct x64 true c x = .error e) ∧ (∀ conv b, ∃ e, default x64 conv true c b = .error e) ∧
        ∀ (K : Type) (g : Desc.Rng K) b k, ∃ e, random x64 g true c b k = .error e) ∧
    (∀ (x64 : Bool) (K : Type) (g : Desc.Rng K) (v : Bool) (nm : String) (n cid : Nat) (w : Bool) (sub rest : SCls) b k,
      random x64 g v (.nested nm (.int n) cid w sub rest) b k = .error .typeError) ∧
    (∀ (fuel : Nat) (c : SCls), accepted c = true → allBits c = .ok true → c.HasInt → decorate fuel .auto false c = .error .typeError) := by
  refine ⟨fun c x h => by simp only [batchShape, fieldBatches_int c x h], fun x64 c h => ?_, fun x64 K g v nm n cid w sub rest b k => rfl,
    fun fuel c ha hb h => ?_⟩
  · have hc : ∀ x, ∃ e, construct x64 true c x = .error e := by
      refine fun x => construct_leaf_raises (fun dt sh a hsh => ?_) h x
      obtain ⟨n, rfl⟩ := hsh
      simp only [checkArr]
      cases expected dt with
      | none => exact ⟨_, rfl⟩
      | some t =>
        simp only
        by_cases ht : canon x64 a.dtype ≠ t
        · exact ⟨_, if_pos ht⟩
        · exact ⟨_, if_neg ht⟩
    exact ⟨hc, fun conv b => default_of_construct hc conv b, fun K g b k => random_of_construct hc g b k⟩
  · have hw : c.width ≠ 0 := by
      cases c with
      | nil => exact h.elim
      | leaf => simp [SCls.width]
      | nested => simp [SCls.width]
    simp [decorate, Desc.effective, ha, hw, hb, aggCheck_int c hb h]

/-! ## Shapes written as a list -/

/-- Some array field, at some level, has its shape written as a list. -/
def SCls.HasListLeaf : SCls → Prop
  | .nil => False
  | .leaf _ _ sh _ _ rest => (∃ l, sh = .lst l) ∨ rest.HasListLeaf
  | .nested _ _ _ _ sub rest => sub.HasListLeaf ∨ rest.HasListLeaf

theorem defaultFields_list {x64 : Bool} {conv : DType → Fv → Option Int} : ∀ (c : SCls) (b : Option (List Nat)), c.HasListLeaf →
    ∃ e, defaultFields x64 conv c b = .error e
  | .leaf _ dt sh f _ rest, b, h => by
    simp only [defaultFields]
    rcases h with ⟨l, rfl⟩ | h
    · have : (b.bind fun b => (wrapShape (.lst l)).map (b ++ ·)) = none := by cases b <;> rfl
      rw [this]
      exact ⟨_, rfl⟩
    · obtain ⟨e, he⟩ := defaultFields_list (x64 := x64) (conv := conv) rest b h
      rw [he]
      generalize full x64 conv _ dt (fillOf dt f) = R
      cases R with
      | error e' => exact ⟨e', rfl⟩
      | ok a => exact ⟨e, rfl⟩
  | .nested _ sh _ v sub rest, b, h => by
    simp only [defaultFields]
    rcases h with h | h
    · obtain ⟨e, he⟩ := defaultFields_list (x64 := x64) (conv := conv) sub (b.bind fun b => (wrapShape sh).map (b ++ ·)) h
      rw [he]
      exact ⟨e, rfl⟩
    · obtain ⟨e, he⟩ := defaultFields_list (x64 := x64) (conv := conv) rest b h
      rw [he]
      generalize defaultFields x64 conv sub _ = R
      cases R with
      | error e' => exact ⟨e', rfl⟩
      | ok x =>
        simp only
        generalize construct x64 v sub x = R'
        cases R' with
        | error e' => exact ⟨e', rfl⟩
        | ok y => exact ⟨e, rfl⟩

theorem finalBatch_unstr {l : List BShape} (h : BShape.unstr ∈ l) : SoA.finalBatch l = .unstr := by
  cases l with
  | nil => cases h
  | cons a l =>
    simp only [SoA.finalBatch]
    have stay : ∀ m : List BShape, m.foldl (fun fin x => if x = .unstr ∨ fin ≠ x then .unstr else fin) BShape.unstr = .unstr := by
      intro m
      induction m with
      | nil => rfl
      | cons x m ih =>
        rw [List.foldl_cons]
        have : (if x = BShape.unstr ∨ BShape.unstr ≠ x then BShape.unstr else BShape.unstr) = .unstr := by split <;> rfl
        rw [this, ih]
    rcases List.mem_cons.1 h with h | h
    · rw [← h]; exact stay l
    · induction l generalizing a with
      | nil => cases h
      | cons x l ih =>
        rw [List.foldl_cons]
        rcases List.mem_cons.1 h with h' | h'
        · rw [← h', if_pos (Or.inl rfl)]; exact stay l
        · exact ih _ (List.mem_cons_of_mem _ h') h'

/-- The class itself has a field, array or nested, whose shape is written as a list. -/
def SCls.HasList : SCls → Prop
  | .nil => False
  | .leaf _ _ sh _ _ rest => (∃ l, sh = .lst l) ∨ rest.HasList
  | .nested _ sh _ _ _ rest => (∃ l, sh = .lst l) ∨ rest.HasList

theorem fieldBatches_list : ∀ (c : SCls) (x : Val) (l : List BShape), c.HasList → fieldBatches c x = .ok l → BShape.unstr ∈ l
  | .leaf _ _ sh _ _ rest, .arr _ a r, l, h, hl => by
    simp only [fieldBatches] at hl
    cases hf : fieldBatch sh a.shape with
    | error e => rw [hf] at hl; cases hl
    | ok b =>
      rw [hf] at hl
      cases hr : fieldBatches rest r with
      | error e => rw [hr] at hl; cases hl
      | ok l' =>
        rw [hr] at hl
        cases hl
        rcases h with ⟨l, rfl⟩ | h
        · cases hf; exact List.mem_cons_self
        · exact List.mem_cons_of_mem _ (fieldBatches_list rest r l' h hr)
  | .nested _ sh _ _ sub rest, .obj _ _ x r, l, h, hl => by
    simp only [fieldBatches] at hl
    cases hs : fieldBatches sub x with
    | error e => rw [hs] at hl; cases hl
    | ok ls =>
      rw [hs] at hl
      simp only at hl
      cases hn : nestedBatch sh (SoA.finalBatch ls) with
      | error e => rw [hn] at hl; cases hl
      | ok b =>
        rw [hn] at hl
        cases hr : fieldBatches rest r with
        | error e => rw [hr] at hl; cases hl
        | ok l' =>
          rw [hr] at hl
          cases hl
          rcases h with ⟨l, rfl⟩ | h
          · simp only [nestedBatch] at hn
            split at hn
            · cases hn; exact List.mem_cons_self
            · cases hn
          · exact List.mem_cons_of_mem _ (fieldBatches_list rest r l' h hr)
  | .leaf _ _ _ _ _ _, .nil, _, _, h => by cases h
  | .leaf _ _ _ _ _ _, .obj _ _ _ _, _, _, h => by cases h
  | .leaf _ _ _ _ _ _, .other _ _, _, _, h => by cases h
  | .nested _ _ _ _ _ _, .nil, _, _, h => by cases h
  | .nested _ _ _ _ _ _, .arr _ _ _, _, _, h => by cases h
  | .nested _ _ _ _ _ _, .other _ _, _, _, h => by cases h

/-- No shape of the class itself is an integer. -/
def SCls.NoInt : SCls → Prop
  | .nil => True
  | .leaf _ _ sh _ _ rest => (∀ n, sh ≠ .int n) ∧ rest.NoInt
  | .nested _ _ _ _ _ rest => rest.NoInt

theorem check_list (x64 : Bool) : ∀ (c : SCls) (x : Val), c.NoInt → check x64 c x = check x64 c.norm x
  | .nil, x, _ => by simp [check, SCls.norm]
  | .leaf _ dt sh f b rest, .arr n a r, h => by
    simp only [check, SCls.norm, check_list x64 rest r h.2]
    have : checkArr x64 dt sh a = checkArr x64 dt (.tup sh.meant) a := by
      cases sh with
      | int n => exact absurd rfl (h.1 n)
      | tup l => rfl
      | lst l => rfl
    rw [this]
  | .nested _ sh cid v sub rest, .obj _ cid' x r, h => by
    simp only [check, SCls.norm, check_list x64 rest r h]
  | .leaf _ _ _ _ _ _, .nil, _ => rfl
  | .leaf _ _ _ _ _ _, .obj _ _ _ _, _ => rfl
  | .leaf _ _ _ _ _ _, .other _ _, _ => rfl
  | .nested _ _ _ _ _ _, .nil, _ => rfl
  | .nested _ _ _ _ _ _, .arr _ _ _, _ => rfl
  | .nested _ _ _ _ _ _, .other _ _, _ => rfl

/-- **C97, finding.**  A shape written as a list `[…]` is not the tuple:
(1) if an array field at any level has one, `default` raises for every batch shape;
(2) if a field of the class has one, every instance whose `shape` can be read is UNSTRUCTURED — yet
(3) validation treats the list as the tuple. -/
theorem list_spelling_false :
    (∀ x64 conv v (c : SCls) b, c.HasListLeaf → ∃ e, default x64 conv v c b = .error e) ∧
    (∀ (c : SCls) (x : Val) (s : BShape), c.HasList → batchShape c x = .ok s → s = .unstr) ∧
    (∀ x64 v (c : SCls) (x : Val), c.NoInt → construct x64 v c x = construct x64 v c.norm x) := by
  refine ⟨fun x64 conv v c b h => ?_, fun c x s h hs => ?_, fun x64 v c x h => by simp only [construct, check_list x64 c x h]⟩
  · obtain ⟨e, he⟩ := defaultFields_list (x64 := x64) (conv := conv) c (some b) h
    exact ⟨e, by simp only [default, he]⟩
  · simp only [batchShape] at hs
    cases hl : fieldBatches c x with
    | error e => rw [hl] at hs; cases hs
    | ok l =>
      rw [hl] at hs
      cases hs
      exact finalBatch_unstr (fieldBatches_list c x l h hl)

/-! ## 64-bit dtypes -/

theorem canon_narrow (u : DType) : canon false u ∉ [DType.int 64, .uint 64, .float 64] := by
  cases u with
  | bool => simp [canon]
  | ext n => simp [canon]
  | int w => by_cases h : w = 64 <;> simp [canon, h]
  | uint w => by_cases h : w = 64 <;> simp [canon, h]
  | float w => by_cases h : w = 64 <;> simp [canon, h]

/-- **C97, finding.**  With JAX's default setting (`x64` off), a class with `validate=True` and an array field of a 64-bit dtype — `jnp.int64`,
`float`, `int` — refuses every instance: no value has that dtype after `jnp.asarray`; `default` and `random` raise as well. -/
theorem wide_validate_false (c : SCls) (h : c.HasLeaf (fun dt _ => ∃ t ∈ [DType.int 64, .uint 64, .float 64], expected dt = some t)) :
    (∀ x, ∃ e, construct false true c x = .error e) ∧ (∀ conv b, ∃ e, default false conv true c b = .error e) ∧
      ∀ (K : Type) (g : Desc.Rng K) b k, ∃ e, random false g true c b k = .error e := by
  have hc : ∀ x, ∃ e, construct false true c x = .error e := by
    refine fun x => construct_leaf_raises (fun dt sh a hdt => ?_) h x
    obtain ⟨t, ht, hd⟩ := hdt
    simp only [checkArr, hd]
    have hne : canon false a.dtype ≠ t := fun he => canon_narrow a.dtype (he ▸ ht)
    exact ⟨_, if_pos hne⟩
  exact ⟨hc, fun conv b => default_of_construct hc conv b, fun K g b k => random_of_construct hc g b k⟩

/-! ## with_intrinsic_shape, broadcast_intrinsic_shape -/

/-- **C97.**  `with_intrinsic_shape` turns a list into the tuple and refuses an integer; `broadcast_intrinsic_shape` prepends the batch shape
exactly when the descriptor's own shape is a tuple. -/
theorem derived_shapes (l b : List Nat) (n : Nat) :
    withShape (.lst l) = .ok (.tup l) ∧ withShape (.tup l) = .ok (.tup l) ∧ withShape (.int n) = .error .typeError ∧
    broadcastShape (.tup l) (.lst b) = .ok (.tup (b ++ l)) ∧ broadcastShape (.tup l) (.tup b) = .ok (.tup (b ++ l)) ∧
    (∀ sh, broadcastShape (.int n) sh = .error .typeError) ∧ ∀ sh, broadcastShape (.lst l) sh = .error .typeError := by
  refine ⟨rfl, rfl, rfl, rfl, rfl, fun sh => ?_, fun sh => ?_⟩ <;> cases sh <;> rfl

/-! ## Examples -/

/-- A nested class with tuples, dtypes written in both ways. -/
def exGood : SCls :=
  .leaf "a" (.scalarType (.uint 8)) (.tup [3]) none (some 3)
    (.nested "p" (.tup [2]) 7 true (.leaf "b" (.inst (.float 32)) (.tup []) none none .nil) .nil)

example : exGood.Tuples ∧ exGood.Kept false ∧ exGood.NoEmpty ∧ exGood.width ≠ 0 := by
  refine ⟨⟨⟨_, rfl⟩, ⟨_, rfl⟩, ⟨⟨_, rfl⟩, trivial⟩, trivial⟩, ⟨⟨_, Or.inl rfl, rfl⟩, ⟨⟨_, Or.inr rfl, rfl⟩, trivial⟩, trivial⟩,
    ⟨by simp [SCls.width], trivial, trivial⟩, by simp [exGood, SCls.width]⟩

/-- The class with one field of shape `3`. -/
def exInt : SCls := .leaf "a" (.scalarType (.uint 8)) (.int 3) none none .nil

/-- **C97, finding.**  The spelling matters: `default` gives the same instance for `3` and `(3,)`, but only the second has a shape. -/
theorem int_spelling_differs : ∃ (c : SCls) (x : Val), c.NoList ∧ c.Unvalidated ∧
    default false (fun _ _ => some 0) false c [2] = .ok x ∧ default false (fun _ _ => some 0) false c.norm [2] = .ok x ∧
    batchShape c.norm x = .ok (.tup [2]) ∧ batchShape c x = .error .typeError :=
  ⟨exInt, .arr "a" ⟨.uint 8, [2, 3], List.replicate 6 0⟩ .nil, ⟨fun _ h => (by cases h), trivial⟩, trivial, by rfl, by rfl, by rfl, by rfl⟩

example : exInt.HasInt ∧ exInt.HasLeaf (fun _ sh => ∃ n, sh = .int n) := ⟨Or.inl ⟨_, rfl⟩, Or.inl ⟨_, rfl⟩⟩

/-- A class that `bitpack="auto"` would pack. -/
example : ∃ c : SCls, accepted c = true ∧ allBits c = .ok true ∧ c.HasInt :=
  ⟨.leaf "a" (.scalarType (.uint 8)) (.int 3) none (some 3) .nil, rfl, rfl, Or.inl ⟨_, rfl⟩⟩

/-- A 64-bit field, written `float`. -/
example : SCls.HasLeaf (fun dt _ => ∃ t ∈ [DType.int 64, .uint 64, .float 64], expected dt = some t)
    (.leaf "x" (.scalarType (.float 64)) (.tup []) none none .nil) := Or.inl ⟨.float 64, by simp, rfl⟩

example : SCls.HasListLeaf (.leaf "x" (.scalarType (.float 32)) (.lst [3]) none none .nil) ∧
    SCls.HasList (.leaf "x" (.scalarType (.float 32)) (.lst [3]) none none .nil) ∧
    SCls.NoInt (.leaf "x" (.scalarType (.float 32)) (.lst [3]) none none .nil) :=
  ⟨Or.inl ⟨_, rfl⟩, Or.inl ⟨_, rfl⟩, fun _ h => (by cases h), trivial⟩

end DescSpell
