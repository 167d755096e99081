import Verif.SoAWhere

/-!
# C106: dtypes in `where`, `where_no_broadcast` and `update_on_condition`

The other modules leave dtypes out.  Here fields carry a dtype and entries are converted as the code converts them.
-/

namespace WhereTypes

open SoA NArr Agg

/-! ## Model -/

/-- The dtypes of JAX without `jax_enable_x64` (complex and 4- and 8-bit floats are left out). -/
inductive Dt where
  | bool | u8 | u16 | u32 | i8 | i16 | i32 | f16 | bf16 | f32
  deriving DecidableEq

namespace Dt

def isInt : Dt → Bool
  | bool | u8 | u16 | u32 | i8 | i16 | i32 => true
  | f16 | bf16 | f32 => false

def signed : Dt → Bool
  | i8 | i16 | i32 => true
  | _ => false

/-- `jnp.result_type(d, d')` of two dtypes (the type promotion table of JAX, with 64-bit results cut to 32 bits; trusted). -/
def promote : Dt → Dt → Dt
  | .bool, d => d
  | d, .bool => d
  | .f32, _ => .f32
  | _, .f32 => .f32
  | .f16, .bf16 => .f32
  | .bf16, .f16 => .f32
  | .f16, _ => .f16
  | _, .f16 => .f16
  | .bf16, _ => .bf16
  | _, .bf16 => .bf16
  | .i32, _ => .i32
  | _, .i32 => .i32
  | .u32, .u8 => .u32
  | .u32, .u16 => .u32
  | .u32, .u32 => .u32
  | .u8, .u32 => .u32
  | .u16, .u32 => .u32
  | .u32, _ => .i32
  | _, .u32 => .i32
  | .u16, .u8 => .u16
  | .u16, .u16 => .u16
  | .u8, .u16 => .u16
  | .u16, _ => .i32
  | _, .u16 => .i32
  | .i8, .i8 => .i8
  | .u8, .u8 => .u8
  | _, _ => .i16

/-- Python scalars (`bool`, `int`, `float`). -/
inductive Py where
  | bool | int | float
  deriving DecidableEq

/-- `jnp.asarray(v).dtype` for a Python scalar. -/
def ofPy : Py → Dt
  | .bool => .bool
  | .int => .i32
  | .float => .f32

/-- `jnp.result_type(d, v)` for a Python scalar `v`, which is weakly typed (what `jnp.where` on arrays uses; trusted). -/
def weak : Dt → Py → Dt
  | d, .bool => d
  | .bool, .int => .i32
  | d, .int => d
  | d, .float => if d.isInt then .f32 else d

end Dt

/-- What is not modelled of floats: conversions. -/
class Floats (F : Type) where
  ofInt : Dt → Int → F
  cast : Dt → F → F
  toInt : Dt → F → Int

/-- An entry of an array. -/
inductive Ent (F : Type) where
  | int (n : Int)
  | flt (x : F)

instance {F : Type} : Inhabited (Ent F) := ⟨.int 0⟩

/-- Conversion of an integer to an integer dtype: the low bits; to `bool`: is it not zero. -/
def wrap : Dt → Int → Int
  | .bool, n => if n = 0 then 0 else 1
  | .u8, n => n % 256
  | .u16, n => n % 65536
  | .u32, n => n % 4294967296
  | .i8, n => (n + 128) % 256 - 128
  | .i16, n => (n + 32768) % 65536 - 32768
  | .i32, n => (n + 2147483648) % 4294967296 - 2147483648
  | _, n => n

variable {F : Type} [Floats F]

/-- `jnp.asarray(a, dtype=t)` of an array of dtype `d`, entry by entry. -/
def conv (d t : Dt) (e : Ent F) : Ent F :=
  if d = t then e
  else match e, t.isInt with
    | .int n, true => .int (wrap t n)
    | .int n, false => .flt (Floats.ofInt t n)
    | .flt x, true => .int (Floats.toInt t x)
    | .flt x, false => .flt (Floats.cast t x)

/-- An array with its dtype. -/
structure DArr (F : Type) where
  dtype : Dt
  arr : NArr (Ent F)

/-- `jnp.asarray(a, dtype=t)`. -/
def DArr.astype (t : Dt) (a : DArr F) : DArr F := ⟨t, ⟨a.arr.shape, a.arr.data.map (conv a.dtype t)⟩⟩

/-- One field of `where` (logical_ops.py:33-50, 56-71): condition and `y` are broadcast, both values converted to their common dtype, then
`_where_no_broadcast` (array_ops.py:89-116), whose checks then hold. -/
def whereLeafD (cond : NArr Bool) (a y : DArr F) : Option (DArr F) :=
  let t := a.dtype.promote y.dtype
  (whereLeaf cond (a.astype t).arr (y.astype t).arr).map fun z => ⟨t, z⟩

/-- `where(condition, x, y)` for an instance `y` (logical_ops.py:14-52). -/
def whereInstD (cond : NArr Bool) (x y : Inst (DArr F)) : Option (Inst (DArr F)) := (zip x y).bind (treeMapM fun p => whereLeafD cond p.1 p.2)

/-- `where(condition, x, y)` for a scalar or array `y` (logical_ops.py:54-73); a Python scalar `v` is the array `jnp.asarray(v)`, of dtype `Dt.ofPy`. -/
def whereRawD (cond : NArr Bool) (x : Inst (DArr F)) (y : DArr F) : Option (Inst (DArr F)) := treeMapM (fun a => whereLeafD cond a y) x

/-- `_where_no_broadcast` (array_ops.py:89-116). -/
def whereStrictD (cond : NArr Bool) (a b : DArr F) : Option (DArr F) :=
  if cond.shape ≠ a.arr.shape then none else if a.arr.shape ≠ b.arr.shape then none
  else if a.dtype ≠ b.dtype then none else some ⟨a.dtype.promote b.dtype, whereSame cond a.arr b.arr⟩

/-- `where_no_broadcast(condition, x, y)` with an array condition (logical_ops.py:76-112). -/
def whereNoBroadcastD (cond : NArr Bool) (x y : Inst (DArr F)) : Option (Inst (DArr F)) := (zip x y).bind (treeMapM fun p => whereStrictD cond p.1 p.2)

/-- `_update_array_on_condition` (array_ops.py:36-86): the values are converted to the dtype of the array (line 85). -/
def updateLeafD (indices : List Int) (cond : List Bool) (ord : List Nat) (a v : DArr F) : Option (DArr F) :=
  (updateLeaf indices cond ord a.arr (v.astype a.dtype).arr).map fun z => ⟨a.dtype, z⟩

/-- `update_on_condition` for an instance of values (logical_ops.py:115-132). -/
def updateD (ord : List String → List Nat) (indices : List Int) (cond : List Bool) : List String → Inst (DArr F) → Inst (DArr F) → Option (Inst (DArr F))
  | _, .nil, .nil => some .nil
  | pre, .leaf n a rest, .leaf n' v rest' =>
    if n = n' then (updateLeafD indices cond (ord (pre ++ [n])) a v).bind fun w =>
      (updateD ord indices cond pre rest rest').map fun r => .leaf n w r
    else none
  | pre, .nested n x rest, .nested n' v rest' =>
    if n = n' then (updateD ord indices cond (pre ++ [n]) x v).bind fun w =>
      (updateD ord indices cond pre rest rest').map fun r => .nested n w r
    else none
  | _, _, _ => none

/-- `jnp.where(cond, a, v)` on an array and a Python scalar (xtructure_numpy/__init__.py:120), its dtype. -/
def arrayWhereDt (d : Dt) (v : Dt.Py) : Dt := d.weak v

/-! ## Specification -/

/-- The dtypes of the fields. -/
def dts (x : Inst (DArr F)) : Inst Dt := treeMap DArr.dtype x

/-- The instance without dtypes: what all other modules talk about. -/
def arrs (x : Inst (DArr F)) : Tree (Ent F) := treeMap DArr.arr x

/-- The integers a dtype holds. -/
def Holds : Dt → Int → Prop
  | .bool, n => n = 0 ∨ n = 1
  | .u8, n => 0 ≤ n ∧ n < 256
  | .u16, n => 0 ≤ n ∧ n < 65536
  | .u32, n => 0 ≤ n ∧ n < 4294967296
  | .i8, n => -128 ≤ n ∧ n < 128
  | .i16, n => -32768 ≤ n ∧ n < 32768
  | .i32, n => -2147483648 ≤ n ∧ n < 2147483648
  | _, _ => False

/-! ## Promotion and conversion -/

theorem promote_self (d : Dt) : d.promote d = d := by cases d <;> rfl

theorem promote_comm (d e : Dt) : d.promote e = e.promote d := by cases d <;> cases e <;> rfl

theorem promote_assoc (d e f : Dt) : (d.promote e).promote f = d.promote (e.promote f) := by cases d <;> cases e <;> cases f <;> rfl

theorem conv_self (d : Dt) (e : Ent F) : conv d d e = e := if_pos rfl

theorem astype_self (a : DArr F) : a.astype a.dtype = a := by
  have : (fun e : Ent F => conv a.dtype a.dtype e) = id := funext fun e => conv_self _ _
  show (⟨a.dtype, ⟨a.arr.shape, a.arr.data.map fun e => conv a.dtype a.dtype e⟩⟩ : DArr F) = a
  rw [this, List.map_id]

/-- **Which integers survive the common dtype.**  Converting to the common dtype of two integer dtypes keeps every integer, except when a `uint32` meets a signed dtype. -/
theorem conv_exact (d e : Dt) (hd : d.isInt = true) (he : e.isInt = true) :
    (∀ n, Holds d n → conv (F := F) d (d.promote e) (.int n) = .int n) ↔ ¬ (d = .u32 ∧ e.signed = true) := by
  have hw : ∀ t n, t.isInt = true → Holds t n → wrap t n = n := by
    intro t n ht h
    cases t <;> simp only [Holds] at h <;> simp only [wrap] <;> first | omega | (cases ht; done) | (split <;> omega)
  have hmono : ∀ n, Holds d n → ¬ (d = .u32 ∧ e.signed = true) → Holds (d.promote e) n := by
    intro n hn hne
    cases d <;> cases e <;> simp only [Holds, Dt.promote] at hn ⊢ <;> first | omega | (cases he; done) | (cases hd; done) | (exfalso; exact hne ⟨rfl, rfl⟩)
  have hpi : (d.promote e).isInt = true := by cases d <;> cases e <;> first | rfl | (cases he; done) | (cases hd; done)
  constructor
  · rintro h ⟨rfl, hs⟩
    have hp : Dt.promote .u32 e = .i32 := by cases e <;> first | rfl | (cases hs; done)
    have := h 2147483648 ⟨by decide, by decide⟩
    rw [hp] at this
    cases this
  · intro hne n hn
    unfold conv
    by_cases h : d = d.promote e
    · rw [if_pos h]
    · rw [if_neg h, hpi]
      simp only
      rw [hw _ _ hpi (hmono n hn hne)]

/-! ## Instances of one class -/

theorem whereLeafD_same {cond : NArr Bool} {a y : DArr F} (h : a.dtype = y.dtype) :
    whereLeafD cond a y = (whereLeaf cond a.arr y.arr).map fun z => ⟨a.dtype, z⟩ := by
  unfold whereLeafD
  simp only
  rw [← h, promote_self, astype_self, h, astype_self]

/-- `tree_map` of a function that, on arrays, is `g`, and gives dtype `t`. -/
theorem treeMapM_typed {β : Type} {f : β → Option (DArr F)} {g : β → Option (NArr (Ent F))} {t : β → Dt} :
    ∀ {x : Inst β}, (∀ v ∈ leaves x, f v = (g v).map fun z => ⟨t v, z⟩) →
    (treeMapM f x).map arrs = treeMapM g x ∧ ∀ z, treeMapM f x = some z → dts z = treeMap t x := by
  intro x
  induction x with
  | nil => intro _; exact ⟨rfl, fun z h => by cases h; rfl⟩
  | leaf n v rest ih =>
    intro h
    obtain ⟨i1, i2⟩ := ih fun w hw => h w (by simp [leaves, hw])
    simp only [treeMapM]
    rw [h v (by simp [leaves]), ← i1]
    cases g v with
    | none => exact ⟨rfl, fun z h => by cases h⟩
    | some w =>
      cases hr : treeMapM f rest with
      | none => exact ⟨rfl, fun z h => by cases h⟩
      | some r =>
        refine ⟨rfl, fun z h => ?_⟩
        have h := Option.some.inj h
        subst h
        have := i2 r hr
        simp only [dts, treeMap] at this ⊢
        rw [this]
  | nested n sub rest ih1 ih2 =>
    intro h
    obtain ⟨i1, i2⟩ := ih1 fun w hw => h w (by simp [leaves, hw])
    obtain ⟨j1, j2⟩ := ih2 fun w hw => h w (by simp [leaves, hw])
    simp only [treeMapM]
    rw [← i1, ← j1]
    cases hs : treeMapM f sub with
    | none => exact ⟨rfl, fun z h => by cases h⟩
    | some w =>
      cases hr : treeMapM f rest with
      | none => exact ⟨rfl, fun z h => by cases h⟩
      | some r =>
        refine ⟨rfl, fun z h => ?_⟩
        have h := Option.some.inj h
        subst h
        have h1 := i2 w hs
        have h2 := j2 r hr
        simp only [dts, treeMap] at h1 h2 ⊢
        rw [h1, h2]

theorem zip_arrs : ∀ (x y : Inst (DArr F)), zip (arrs x) (arrs y) = (zip x y).map (treeMap fun q => (q.1.arr, q.2.arr))
  | .nil, .nil => rfl
  | .nil, .leaf _ _ _ => rfl
  | .nil, .nested _ _ _ => rfl
  | .leaf _ _ _, .nil => rfl
  | .leaf _ _ _, .nested _ _ _ => rfl
  | .nested _ _ _, .nil => rfl
  | .nested _ _ _, .leaf _ _ _ => rfl
  | .leaf n a r, .leaf n' a' r' => by
    have ih := zip_arrs r r'
    simp only [arrs, treeMap, zip] at ih ⊢
    by_cases h : n = n'
    · rw [if_pos h, if_pos h, ih]
      cases zip r r' <;> rfl
    · rw [if_neg h, if_neg h]; rfl
  | .nested n s r, .nested n' s' r' => by
    have ih1 := zip_arrs s s'
    have ih2 := zip_arrs r r'
    simp only [arrs, treeMap, zip] at ih1 ih2 ⊢
    by_cases h : n = n'
    · rw [if_pos h, if_pos h, ih1, ih2]
      cases zip s s' <;> cases zip r r' <;> rfl
    · rw [if_neg h, if_neg h]; rfl

theorem treeMapM_treeMap {β γ δ : Type} (f : γ → Option δ) (g : β → γ) : ∀ x : Inst β, treeMapM f (treeMap g x) = treeMapM (fun v => f (g v)) x
  | .nil => rfl
  | .leaf n v r => by simp only [treeMap, treeMapM, treeMapM_treeMap f g r]
  | .nested n s r => by simp only [treeMap, treeMapM, treeMapM_treeMap f g s, treeMapM_treeMap f g r]

theorem zip_dts {x y : Inst (DArr F)} {p : Inst (DArr F × DArr F)} (h : zip x y = some p) (hd : dts x = dts y) : ∀ q ∈ leaves p, q.1.dtype = q.2.dtype := by
  obtain ⟨h1, h2⟩ := zip_proj h
  unfold dts at hd
  rw [← h1, ← h2, treeMap_comp, treeMap_comp] at hd
  have := congrArg leaves hd
  rw [leaves_treeMap, leaves_treeMap] at this
  intro q hq
  exact List.map_inj_left.1 this q hq

/-- **C106 (1).**  `where` of two instances whose fields have the same dtypes (such as any two instances that pass `check_invariants`) keeps the dtypes, and is what it is without
dtypes: the theorems of C46 hold of it as they stand. -/
theorem where_same_types {x y : Inst (DArr F)} (cond : NArr Bool) (hd : dts x = dts y) :
    (whereInstD cond x y).map arrs = whereInst cond (arrs x) (arrs y) ∧ ∀ z, whereInstD cond x y = some z → dts z = dts x := by
  unfold whereInstD whereInst
  rw [zip_arrs]
  cases h : zip x y with
  | none => exact ⟨rfl, fun z h => by cases h⟩
  | some p =>
    simp only [Option.bind_some, Option.map_some]
    rw [treeMapM_treeMap]
    obtain ⟨h1, h2⟩ := treeMapM_typed (f := fun q : DArr F × DArr F => whereLeafD cond q.1 q.2) (g := fun q => whereLeaf cond q.1.arr q.2.arr) (t := fun q => q.1.dtype)
      (x := p) fun q hq => whereLeafD_same (zip_dts h hd q hq)
    refine ⟨h1, fun z hz => ?_⟩
    rw [h2 z hz]
    have := (zip_proj h).1
    unfold dts
    rw [← this, treeMap_comp]

/-- **C106 (2).**  `where_no_broadcast` returns only if the dtypes are the same, and keeps them. -/
theorem where_no_broadcast_types {x y z : Inst (DArr F)} {cond : NArr Bool} (h : whereNoBroadcastD cond x y = some z) :
    dts x = dts y ∧ dts z = dts x ∧ whereNoBroadcast cond (arrs x) (arrs y) = some (arrs z) := by
  unfold whereNoBroadcastD at h
  cases hp : zip x y with
  | none => rw [hp] at h; cases h
  | some p =>
    rw [hp] at h
    simp only [Option.bind_some] at h
    have hs : ∀ q ∈ leaves p, q.1.dtype = q.2.dtype := by
      intro q hq
      obtain ⟨w, hw⟩ := leaves_mapM h q hq
      unfold whereStrictD at hw
      apply Classical.byContradiction
      intro hn
      by_cases c1 : cond.shape ≠ q.1.arr.shape
      · rw [if_pos c1] at hw; cases hw
      · rw [if_neg c1] at hw
        by_cases c2 : q.1.arr.shape ≠ q.2.arr.shape
        · rw [if_pos c2] at hw; cases hw
        · rw [if_neg c2, if_pos hn] at hw
          cases hw
    obtain ⟨p1, p2⟩ := zip_proj hp
    have hdd : dts x = dts y := by
      unfold dts
      rw [← p1, ← p2, treeMap_comp, treeMap_comp]
      exact treeMap_congr fun q hq => hs q hq
    obtain ⟨h1, h2⟩ := treeMapM_typed (f := fun q : DArr F × DArr F => whereStrictD cond q.1 q.2) (g := fun q => whereStrict cond q.1.arr q.2.arr) (t := fun q => q.1.dtype)
      (x := p) fun q hq => by
        have := hs q hq
        unfold whereStrictD whereStrict
        by_cases c1 : cond.shape ≠ q.1.arr.shape
        · rw [if_pos c1, if_pos c1]; rfl
        · rw [if_neg c1, if_neg c1]
          by_cases c2 : q.1.arr.shape ≠ q.2.arr.shape
          · rw [if_pos c2, if_pos c2]; rfl
          · rw [if_neg c2, if_neg c2, if_neg (by simpa using this), ← this, promote_self]
            rfl
    refine ⟨hdd, ?_, ?_⟩
    · rw [h2 z h]
      unfold dts
      rw [← p1, treeMap_comp]
    · unfold whereNoBroadcast
      rw [zip_arrs, hp]
      simp only [Option.map_some, Option.bind_some]
      rw [treeMapM_treeMap, ← h1, h]
      rfl

/-! ## A scalar or an array as second value -/

/-- **C106 (3).**  `where(condition, x, v)`: every field gets the common dtype of the field and `v`; nothing else about dtypes decides whether it raises. -/
theorem where_raw_types {x : Inst (DArr F)} {y : DArr F} (cond : NArr Bool) :
    (∀ z, whereRawD cond x y = some z → dts z = treeMap (fun d => d.promote y.dtype) (dts x)) ∧
      ((whereRawD cond x y).isSome = true ↔ (whereRaw cond (arrs x) y.arr).isSome = true) := by
  have hl : ∀ a : DArr F, (whereLeafD cond a y).isSome = (whereLeaf cond a.arr y.arr).isSome := by
    intro a
    unfold whereLeafD whereLeaf
    simp only [DArr.astype]
    unfold broadcastTo
    simp only
    split <;> split <;> simp
  constructor
  · intro z hz
    obtain ⟨_, h2⟩ := treeMapM_typed (f := fun a : DArr F => whereLeafD cond a y)
      (g := fun a => whereLeaf cond (a.astype (a.dtype.promote y.dtype)).arr (y.astype (a.dtype.promote y.dtype)).arr) (t := fun a => a.dtype.promote y.dtype)
      (x := x) fun a _ => rfl
    rw [h2 z hz]
    unfold dts
    rw [treeMap_comp]
  · have key : ∀ x : Inst (DArr F), (treeMapM (fun a => whereLeafD cond a y) x).isSome = (treeMapM (fun a : DArr F => whereLeaf cond a.arr y.arr) x).isSome := by
      intro x
      induction x with
      | nil => rfl
      | leaf n v r ih =>
        simp only [treeMapM]
        have := hl v
        cases h1 : whereLeafD cond v y <;> cases h2 : whereLeaf cond v.arr y.arr <;> rw [h1, h2] at this <;> first | rfl | (cases this; done) | skip
        simp only [Option.bind_some, Option.isSome_map, ih]
      | nested n s r ih1 ih2 =>
        simp only [treeMapM]
        cases h1 : treeMapM (fun a => whereLeafD cond a y) s <;> cases h2 : treeMapM (fun a : DArr F => whereLeaf cond a.arr y.arr) s <;> rw [h1, h2] at ih1 <;>
          first | rfl | (cases ih1; done) | skip
        simp only [Option.bind_some, Option.isSome_map, ih2]
    unfold whereRawD whereRaw arrs
    rw [treeMapM_treeMap, key x]

/-- So the dtypes are kept iff every field absorbs the dtype of `v`. -/
theorem where_raw_keeps_iff {x z : Inst (DArr F)} {y : DArr F} {cond : NArr Bool} (h : whereRawD cond x y = some z) :
    dts z = dts x ↔ ∀ d ∈ leaves (dts x), d.promote y.dtype = d := by
  rw [(where_raw_types cond).1 z h]
  constructor
  · intro he d hd
    have := congrArg leaves he
    rw [leaves_treeMap] at this
    have h2 : List.map (fun d => d.promote y.dtype) (leaves (dts x)) = List.map id (leaves (dts x)) := by rw [this, List.map_id]
    exact List.map_inj_left.1 h2 d hd
  · intro he
    exact treeMap_id he

theorem get_map {β γ : Type} [Inhabited β] [Inhabited γ] {a : NArr β} (ha : a.Wf) (f : β → γ) {i : List Nat} (hi : InB a.shape i) :
    (⟨a.shape, a.data.map f⟩ : NArr γ).get i = f (a.get i) := by
  have := ravel_lt hi
  unfold NArr.get
  simp only
  rw [List.getD_eq_getElem?_getD, List.getD_eq_getElem?_getD, List.getElem?_map, List.getElem?_eq_getElem (by rw [ha]; exact this)]
  rfl

/-- **C106 (4).**  The entries, field by field: the entry of `x` or of `v`, converted to the common dtype. -/
theorem where_raw_entries {x z : Inst (DArr F)} {y : DArr F} {cond : NArr Bool} (hx : ∀ a ∈ leaves x, a.arr.Wf) (hy : y.arr.Wf) (h : whereRawD cond x y = some z) :
    ∃ p, zip x z = some p ∧ ∀ q ∈ leaves p, q.2.dtype = q.1.dtype.promote y.dtype ∧ q.2.arr.shape = q.1.arr.shape ∧
      ∀ i, InB q.1.arr.shape i → q.2.arr.get i =
        if cond.get (bcastSrc cond.shape i) then conv q.1.dtype q.2.dtype (q.1.arr.get i) else conv y.dtype q.2.dtype (y.arr.get (bcastSrc y.arr.shape i)) := by
  have hleaf : ∀ a w : DArr F, a.arr.Wf → whereLeafD cond a y = some w → w.dtype = a.dtype.promote y.dtype ∧ w.arr.shape = a.arr.shape ∧
      ∀ i, InB a.arr.shape i → w.arr.get i =
        if cond.get (bcastSrc cond.shape i) then conv a.dtype w.dtype (a.arr.get i) else conv y.dtype w.dtype (y.arr.get (bcastSrc y.arr.shape i)) := by
    intro a w ha hw
    unfold whereLeafD whereLeaf at hw
    simp only [DArr.astype] at hw
    generalize a.dtype.promote y.dtype = t at hw
    cases hc : broadcastTo cond a.arr.shape with
    | none => rw [hc] at hw; cases hw
    | some c =>
      rw [hc] at hw
      simp only [Option.bind_some] at hw
      unfold broadcastTo at hw
      by_cases hb : y.arr.shape.length ≤ a.arr.shape.length ∧ bcastDims y.arr.shape (a.arr.shape.drop (a.arr.shape.length - y.arr.shape.length)) = true
      · simp only at hw
        rw [if_pos hb] at hw
        have hw := Option.some.inj hw
        subst hw
        refine ⟨rfl, rfl, fun i hi => ?_⟩
        simp only
        unfold whereSame
        simp only
        rw [get_ofFn _ hi]
        have hcg : c.get i = cond.get (bcastSrc cond.shape i) := by
          unfold broadcastTo at hc
          by_cases hcb : cond.shape.length ≤ a.arr.shape.length ∧ bcastDims cond.shape (a.arr.shape.drop (a.arr.shape.length - cond.shape.length)) = true
          · rw [if_pos hcb] at hc
            rw [← Option.some.inj hc, get_ofFn _ hi]
          · rw [if_neg hcb] at hc; cases hc
        rw [hcg]
        split
        · exact get_map ha _ hi
        · rw [get_ofFn _ hi]
          exact get_map hy _ (bcastSrc_inB hb hi)
      · simp only at hw
        rw [if_neg hb] at hw
        cases hw
  have main : ∀ x z : Inst (DArr F), (∀ a ∈ leaves x, a.arr.Wf) → treeMapM (fun a => whereLeafD cond a y) x = some z →
      ∃ p, zip x z = some p ∧ ∀ q ∈ leaves p, q.1.arr.Wf ∧ whereLeafD cond q.1 y = some q.2 := by
    intro x
    induction x with
    | nil => intro z _ h; cases h; exact ⟨.nil, rfl, fun q hq => by cases hq⟩
    | leaf n v r ih =>
      intro z hx h
      simp only [treeMapM] at h
      cases hv : whereLeafD cond v y with
      | none => rw [hv] at h; cases h
      | some w =>
        cases hr : treeMapM (fun a => whereLeafD cond a y) r with
        | none => rw [hv, hr] at h; cases h
        | some t =>
          rw [hv, hr] at h
          have h := Option.some.inj h
          subst h
          obtain ⟨p, p1, p2⟩ := ih t (fun a ha => hx a (by simp [leaves, ha])) hr
          refine ⟨.leaf n (v, w) p, ?_, ?_⟩
          · simp only [zip]
            rw [if_pos trivial, p1]
            rfl
          · intro q hq
            rcases List.mem_cons.1 hq with rfl | hq
            · exact ⟨hx v (by simp [leaves]), hv⟩
            · exact p2 q hq
    | nested n s r ih1 ih2 =>
      intro z hx h
      simp only [treeMapM] at h
      cases hv : treeMapM (fun a => whereLeafD cond a y) s with
      | none => rw [hv] at h; cases h
      | some w =>
        cases hr : treeMapM (fun a => whereLeafD cond a y) r with
        | none => rw [hv, hr] at h; cases h
        | some t =>
          rw [hv, hr] at h
          have h := Option.some.inj h
          subst h
          obtain ⟨p, p1, p2⟩ := ih1 w (fun a ha => hx a (by simp [leaves, ha])) hv
          obtain ⟨p', p1', p2'⟩ := ih2 t (fun a ha => hx a (by simp [leaves, ha])) hr
          refine ⟨.nested n p p', ?_, ?_⟩
          · simp only [zip]
            rw [if_pos trivial, p1, p1']
            rfl
          · intro q hq
            rcases List.mem_append.1 hq with hq | hq
            · exact p2 q hq
            · exact p2' q hq
  obtain ⟨p, p1, p2⟩ := main x z hx h
  exact ⟨p, p1, fun q hq => hleaf _ _ (p2 q hq).1 (p2 q hq).2⟩

/-- **C106 (5).**  With a Python integer every integer and boolean field becomes `int32`, whereas `where` on an array keeps its dtype unless it is `bool`; with a Python float every
such field becomes `float32`, and `float16`, `bfloat16` fields too. -/
theorem where_python {x z : Inst (DArr F)} {v : Dt.Py} {e : Ent F} {cond : NArr Bool} (h : whereRawD cond x ⟨.ofPy v, ⟨[], [e]⟩⟩ = some z) :
    (v = .bool → dts z = dts x) ∧
    (v = .int → dts z = treeMap (fun d => if d.isInt then .i32 else d) (dts x)) ∧
    (v = .float → dts z = treeMap (fun _ => .f32) (dts x)) := by
  have := (where_raw_types cond).1 z h
  refine ⟨fun hv => ?_, fun hv => ?_, fun hv => ?_⟩ <;> subst hv <;> rw [this]
  · exact treeMap_id fun d _ => by cases d <;> rfl
  · exact treeMap_congr fun d _ => by cases d <;> rfl
  · exact treeMap_congr fun d _ => by cases d <;> rfl

theorem array_where_keeps (d : Dt) : (d ≠ .bool → arrayWhereDt d .int = d) ∧ (d.isInt = false → arrayWhereDt d .float = d) ∧ arrayWhereDt d .bool = d := by
  cases d <;> exact ⟨fun h => (by first | rfl | exact (h rfl).elim), fun h => (by first | rfl | cases h), rfl⟩

/-! ## Updates -/

/-- **C106 (6).**  `update_on_condition` keeps the dtypes of the fields, whatever the dtypes of the values; for values of the same dtypes it is what it is without dtypes. -/
theorem update_types (ord : List String → List Nat) (indices : List Int) (cond : List Bool) : ∀ (x v : Inst (DArr F)) (pre : List String),
    (∀ z, updateD ord indices cond pre x v = some z → dts z = dts x) ∧
    (dts v = dts x → (updateD ord indices cond pre x v).map arrs = updateOnCondition ord indices cond pre (arrs x) (arrs v))
  | .nil, .nil, _ => ⟨fun z h => by cases h; rfl, fun _ => rfl⟩
  | .nil, .leaf _ _ _, _ => ⟨fun z h => (by cases h), fun _ => rfl⟩
  | .nil, .nested _ _ _, _ => ⟨fun z h => (by cases h), fun _ => rfl⟩
  | .leaf _ _ _, .nil, _ => ⟨fun z h => (by cases h), fun _ => rfl⟩
  | .leaf _ _ _, .nested _ _ _, _ => ⟨fun z h => (by cases h), fun _ => rfl⟩
  | .nested _ _ _, .nil, _ => ⟨fun z h => (by cases h), fun _ => rfl⟩
  | .nested _ _ _, .leaf _ _ _, _ => ⟨fun z h => (by cases h), fun _ => rfl⟩
  | .leaf n a r, .leaf n' w r', pre => by
    obtain ⟨i1, i2⟩ := update_types ord indices cond r r' pre
    constructor
    · intro z h
      simp only [updateD] at h
      by_cases hn : n = n'
      · rw [if_pos hn] at h
        unfold updateLeafD at h
        cases h1 : updateLeaf indices cond (ord (pre ++ [n])) a.arr (w.astype a.dtype).arr with
        | none => rw [h1] at h; cases h
        | some b =>
          cases h2 : updateD ord indices cond pre r r' with
          | none => rw [h1, h2] at h; cases h
          | some q =>
            rw [h1, h2] at h
            have h := Option.some.inj h
            subst h
            have := i1 q h2
            simp only [dts, treeMap] at this ⊢
            rw [this]
      · rw [if_neg hn] at h; cases h
    · intro hd
      simp only [dts, treeMap, Inst.leaf.injEq] at hd
      have i2 := i2 hd.2.2
      simp only [arrs, treeMap] at i2 ⊢
      simp only [updateD, updateOnCondition]
      by_cases hn : n = n'
      · rw [if_pos hn, if_pos hn, ← i2]
        unfold updateLeafD
        rw [← hd.2.1, astype_self]
        cases updateLeaf indices cond (ord (pre ++ [n])) a.arr w.arr with
        | none => rfl
        | some b => cases updateD ord indices cond pre r r' <;> rfl
      · rw [if_neg hn, if_neg hn]; rfl
  | .nested n s r, .nested n' s' r', pre => by
    obtain ⟨i1, i2⟩ := update_types ord indices cond s s' (pre ++ [n])
    obtain ⟨j1, j2⟩ := update_types ord indices cond r r' pre
    constructor
    · intro z h
      simp only [updateD] at h
      by_cases hn : n = n'
      · rw [if_pos hn] at h
        cases h1 : updateD ord indices cond (pre ++ [n]) s s' with
        | none => rw [h1] at h; cases h
        | some b =>
          cases h2 : updateD ord indices cond pre r r' with
          | none => rw [h1, h2] at h; cases h
          | some q =>
            rw [h1, h2] at h
            have h := Option.some.inj h
            subst h
            have e1 := i1 b h1
            have e2 := j1 q h2
            simp only [dts, treeMap] at e1 e2 ⊢
            rw [e1, e2]
      · rw [if_neg hn] at h; cases h
    · intro hd
      simp only [dts, treeMap, Inst.nested.injEq] at hd
      have i2 := i2 hd.2.1
      have j2 := j2 hd.2.2
      simp only [arrs, treeMap] at i2 j2 ⊢
      simp only [updateD, updateOnCondition]
      by_cases hn : n = n'
      · rw [if_pos hn, if_pos hn, ← i2, ← j2]
        cases updateD ord indices cond (pre ++ [n]) s s' with
        | none => rfl
        | some b => cases updateD ord indices cond pre r r' <;> rfl
      · rw [if_neg hn, if_neg hn]; rfl

/-! ## What is false -/

/-- Conversions for the examples: a float is its value, in sixteenths. -/
instance : Floats Int := ⟨fun _ n => 16 * n, fun _ x => x, fun _ x => x / 16⟩

/-- **C106 is false for scalars.**  A batch of two records with a `uint32` key; `where([True, False], x, 0)` keeps record 0: its key 2147483648 is returned as -2147483648, and the
field is `int32`. -/
theorem where_scalar_false : ∃ (x z : Inst (DArr Int)) (cond : NArr Bool), dts x = .leaf "key" .u32 .nil ∧
    whereRawD cond x ⟨.ofPy .int, ⟨[], [.int 0]⟩⟩ = some z ∧ dts z = .leaf "key" .i32 .nil ∧
    arrs x = .leaf "key" ⟨[2], [.int 2147483648, .int 7]⟩ .nil ∧ arrs z = .leaf "key" ⟨[2], [.int (-2147483648), .int 0]⟩ .nil :=
  ⟨.leaf "key" ⟨.u32, ⟨[2], [.int 2147483648, .int 7]⟩⟩ .nil, .leaf "key" ⟨.i32, ⟨[2], [.int (-2147483648), .int 0]⟩⟩ .nil, ⟨[2], [true, false]⟩, rfl, by rfl, rfl, rfl, rfl⟩

/-! ## Examples -/

/-- A class with an `int32` and a nested `uint8` field. -/
def exX : Inst (DArr Int) := .leaf "cost" ⟨.i32, ⟨[2], [.int 5, .int 6]⟩⟩ (.nested "key" (.leaf "id" ⟨.u8, ⟨[2], [.int 1, .int 2]⟩⟩ .nil) .nil)
def exY : Inst (DArr Int) := .leaf "cost" ⟨.i32, ⟨[2], [.int 8, .int 9]⟩⟩ (.nested "key" (.leaf "id" ⟨.u8, ⟨[2], [.int 3, .int 4]⟩⟩ .nil) .nil)
def exV : Inst (DArr Int) := .leaf "cost" ⟨.i32, ⟨[1], [.int 8]⟩⟩ (.nested "key" (.leaf "id" ⟨.u8, ⟨[1], [.int 3]⟩⟩ .nil) .nil)

example : dts exX = dts exY ∧ (whereInstD ⟨[2], [true, false]⟩ exX exY).isSome = true ∧ (whereNoBroadcastD ⟨[2], [true, false]⟩ exX exY).isSome = true ∧
    (whereRawD ⟨[2], [true, false]⟩ exX ⟨.ofPy .int, ⟨[], [.int 0]⟩⟩).isSome = true ∧ (whereRawD ⟨[2], [true, false]⟩ exX ⟨.u8, ⟨[], [.int 0]⟩⟩).isSome = true ∧
    (∀ d ∈ leaves (dts exX), d.promote .u8 = d) ∧ dts exV = dts exX ∧
    (updateD (fun _ => [0]) [1] [true] [] exX exV).isSome = true := by
  refine ⟨rfl, rfl, rfl, rfl, rfl, ?_, rfl, by decide +kernel⟩
  intro d hd
  rcases List.mem_cons.1 hd with rfl | hd
  · rfl
  · rw [List.mem_singleton.1 hd]; rfl

end WhereTypes
