import Verif.TakeMode
import Verif.SoAReshape
import Verif.DescSpell
import Verif.DescDefault
import Verif.DescPolicy
import Verif.HashConfig
import Verif.MergeKV

/-!
# Edge cases of C15, C47, C55, C56, C85, C89 and C97
-/

namespace Xnp

open Agg NArr SoA

variable {α : Type} [Inhabited α]

/-- **C89.**  Along an empty axis an empty index array is accepted in every mode and returns the batch as it is. -/
theorem take_empty_axis_no_indices {m : TakeMode} {fill : α} {b s : List Nat} {c : Cls α} {x : Tree α} {inds : List Int} {ax : Nat} (h : Conf b c x)
    (hn : b[ax]? = some 0) (hs : size s = 0) : takeModeTree m fill x s inds (some (ax : Int)) = some x := by
  have hax : ax < b.length := (List.getElem?_eq_some_iff.1 hn).1
  unfold takeModeTree
  simp only
  rw [treeMapM_some (g := id), treeMap_id (f := id) fun _ _ => rfl]
  intro a ha
  obtain ⟨_, r, hr⟩ := conf_leaves h a ha
  have hbn : a.shape.getD ax 0 = 0 := by
    rw [hr, getD_append_left' _ hax, List.getD_eq_getElem?_getD, hn]; rfl
  unfold takeMode
  rw [normAxis_nat (by rw [hr, List.length_append]; omega), Option.bind_some, if_pos hbn, if_pos hs]
  rfl

/-- **C89.**  `take_along_axis` without an axis and with a `mode` or a `fill_value`, for a class of scalar fields: the batch is flattened (row
major) and the call is the one along axis 0. -/
theorem along_mode_none {m : Option AlongMode} {fill : Option α} {oob : α} {b : List Nat} {c : Cls α} {x : Tree α} {inds : NArr Int} (hne : c ≠ .nil)
    (hf : c.HasFields) (hc : c.Scalar) (h : Conf b c x) (hb : b ≠ []) (hm : m ≠ none ∨ fill ≠ none) :
    takeAlongTree oob x inds none m fill = (SoA.flatten c x).bind fun z => takeAlongTree oob z inds (some 0) m fill := by
  have hif : (m.isSome || fill.isSome) = true := by
    cases m with
    | some _ => rfl
    | none => cases fill with
      | some _ => rfl
      | none => rcases hm with h | h <;> exact absurd rfl h
  have hsh : ∀ a ∈ leaves x, a.shape = b := by
    have hl := scalar_leaves hc h
    clear h hne hf hm hif
    generalize hP : (fun (r : List Nat) (a : NArr α) => r = [] ∧ a.Wf ∧ a.shape = b) = P at hl
    intro a ha
    revert hl
    suffices ∀ (pre : List Nat) (c : Cls α) (x : Tree α), ConfP P pre c x → ∀ a ∈ leaves x, a.shape = b from fun hl => this _ c x hl a ha
    intro pre c x
    induction x generalizing pre c with
    | nil => intro _ a ha; cases ha
    | leaf n v rest ih => cases c with
      | nil => intro h; exact h.elim
      | nested => intro h; exact h.elim
      | leaf n' ish fl cr =>
        intro h a ha
        rcases List.mem_cons.1 ha with rfl | ha
        · have h2 := h.2.1
          rw [← hP] at h2
          exact h2.2.2
        · exact ih _ _ h.2.2 a ha
    | nested n s rest ih1 ih2 => cases c with
      | nil => intro h; exact h.elim
      | leaf => intro h; exact h.elim
      | nested n' ish cs cr =>
        intro h a ha
        rcases List.mem_append.1 ha with ha | ha
        · exact ih1 _ _ h.2.1 a ha
        · exact ih2 _ _ h.2.2 a ha
  have hfl : SoA.flatten c x = some (treeMap NArr.flat x) := by
    cases b with
    | nil => exact absurd rfl hb
    | cons d b =>
      unfold SoA.flatten
      rw [batchShape_of_conf hne hf h]
      simp only [Option.bind_some]
      refine treeMapM_some fun a ha => ?_
      have hs := hsh a ha
      rw [if_neg (by rw [hs]; simp), hs, show b.length + 1 = (d :: b).length from rfl, List.drop_length]
      unfold NArr.reshape NArr.flat
      rw [hs, if_pos (by rw [size_cons, size_nil, Nat.mul_one])]
  rw [hfl, Option.bind_some]
  unfold takeAlongTree
  rw [if_pos hif, if_pos hif]
  simp only
  generalize (fun a => NArr.alongMode (m.getD .fill) (fill.getD oob) inds 0 a) = g
  clear hfl hsh h hc hf hne
  induction x with
  | nil => rfl
  | leaf n v rest ih => simp only [treeMapM, treeMap, ih]
  | nested n s rest ih1 ih2 => simp only [treeMapM, treeMap, ih1, ih2]

/-- A 2×2 batch of two scalars, flattened and read at 3, -4 and 4. -/
example : takeAlongTree 0 (.leaf "a" ⟨[2, 2], [1, 2, 3, 4]⟩ (.leaf "b" ⟨[2, 2], [5, 6, 7, 8]⟩ .nil) : Tree Nat) ⟨[3], [3, -4, 4]⟩ none none (some 9) =
      some (.leaf "a" ⟨[3], [4, 1, 9]⟩ (.leaf "b" ⟨[3], [8, 5, 9]⟩ .nil)) ∧
    takeModeTree .wrap 0 (.leaf "v" ⟨[0, 2], []⟩ .nil : Tree Nat) [0] [] (some 0) = some (.leaf "v" ⟨[0, 2], []⟩ .nil) := by decide +kernel

end Xnp

namespace SoA

open Agg NArr

variable {α : Type} [Inhabited α]

/-- **C47.**  `swapaxes` of an instance without a common batch shape treats it as having one axis: with the axes 0 or -1 it returns the instance,
with any other axis it raises. -/
theorem swapaxes_unstructured {c : Cls α} {x : Tree α} (hx : ∀ a ∈ leaves x, a.Wf) (h : batchShape c x = some .unstr) (i j : Int) :
    swapaxes c x i j = if (i = 0 ∨ i = -1) ∧ (j = 0 ∨ j = -1) then some x else none := by
  have hn : ∀ i : Int, normAxis i 1 = if i = 0 ∨ i = -1 then some 0 else none := by
    intro i
    unfold normAxis
    by_cases h0 : i = 0
    · subst h0; rfl
    · by_cases h1 : i = -1
      · subst h1; rfl
      · rw [if_neg (by omega), if_neg (by omega), if_neg (by omega)]
  unfold swapaxes
  rw [h]
  simp only [Option.bind_some, hn]
  by_cases hi : i = 0 ∨ i = -1
  · by_cases hj : j = 0 ∨ j = -1
    · rw [if_pos hi, if_pos hj, if_pos ⟨hi, hj⟩]
      simp only [Option.bind_some]
      rw [treeMapM_some (g := id), treeMap_id (f := id) fun _ _ => rfl]
      intro a ha
      by_cases hl : a.shape.length < 1
      · rw [if_pos hl]; rfl
      · rw [if_neg hl]
        unfold NArr.swapaxes
        rw [normAxis_nat (by omega)]
        simp only [Option.bind_some, Option.map_some, id_eq, Option.some.injEq]
        have hset : ∀ l : List Nat, (l.set 0 (l.getD 0 0)).set 0 (l.getD 0 0) = l := by
          intro l; cases l <;> rfl
        simp only [hset]
        exact ofFn_get (hx a ha)
    · rw [if_pos hi, if_neg hj, if_neg (fun h => hj h.2)]; rfl
  · rw [if_neg hi, if_neg (c := (i = 0 ∨ i = -1) ∧ (j = 0 ∨ j = -1)) (fun h => hi h.1)]; rfl

/-- A class with a scalar and a vector field whose batch sizes differ. -/
example : batchShape demoSetC (.leaf "a" ⟨[3], [1, 2, 3]⟩ (.leaf "v" ⟨[1, 2], [4, 5]⟩ .nil)) = some .unstr := by
  decide +kernel

end SoA

namespace Desc

open Io (DType Arr)

/-- **C55.**  Without an explicit dtype, `packed_tensor` unpacks to `bool` for one bit, to `uint8` for two to eight bits and to `uint32` above; an
explicit dtype is kept.  The dtype holds every value of that many bits. -/
theorem packed_tensor_dtype {sh : List Nat} {bits : Nat} (h1 : 1 ≤ bits) (h32 : bits ≤ 32) :
    (∀ t, ∃ d, packedTensor (some t) (some sh) none bits = .ok d ∧ d.udtype = some t) ∧
    ∃ d t, packedTensor none (some sh) none bits = .ok d ∧ d.udtype = some t ∧ (bits = 1 → t = .bool) ∧ (2 ≤ bits → bits ≤ 8 → t = .uint 8) ∧
      (9 ≤ bits → t = .uint 32) ∧ ∀ v : Int, 0 ≤ v → v < 2 ^ bits → InDtype t v := by
  have hi : ∀ t : DType, ∃ d, init (.uint 8) [packedNumBytes (Bitpack.size sh) bits] (some (.int 0)) none (some (bits : Int)) (some t) (some sh) none none = .ok d ∧
      d.udtype = some t := by
    intro t
    unfold init
    rw [if_neg (by simp), if_neg (by simp [bitsOk]), if_neg (by simp only [bitsOk]; simp; omega)]
    exact ⟨_, rfl, by simp⟩
  constructor
  · intro t
    unfold packedTensor
    simp only [Option.isSome_none, Bool.false_eq_true, false_and, if_false]
    exact hi t
  · unfold packedTensor
    simp only [Option.isSome_none, Bool.false_eq_true, false_and, if_false, Option.getD_none]
    obtain ⟨d, hd, hu⟩ := hi (if (bits : Int) = 1 then .bool else if (bits : Int) ≤ 8 then .uint 8 else .uint 32)
    refine ⟨d, _, hd, hu, ?_, ?_, ?_, ?_⟩
    · intro h; rw [if_pos (by omega)]
    · intro h h'; rw [if_neg (by omega), if_pos (by omega)]
    · intro h; rw [if_neg (by omega), if_neg (by omega)]
    · intro v hv0 hv
      have hp : ∀ k, bits ≤ k → (2 : Int) ^ bits ≤ 2 ^ k := fun k hk => by
        exact_mod_cast Nat.pow_le_pow_right (by decide) hk
      by_cases hb1 : bits = 1
      · subst hb1
        rw [if_pos (by omega)]
        exact ⟨hv0, by omega⟩
      · rw [if_neg (by omega)]
        by_cases hb8 : bits ≤ 8
        · rw [if_pos (by omega)]
          exact ⟨hv0, Int.lt_of_lt_of_le hv (hp 8 hb8)⟩
        · rw [if_neg (by omega)]
          exact ⟨hv0, Int.lt_of_lt_of_le hv (hp 32 h32)⟩

/-- **C55.**  The two spellings of the shape of `packed_tensor` mean the same; given both they must agree, given neither it raises a `TypeError`; a
number of bits outside 1..32 raises. -/
theorem packed_tensor_spelling (udtype : Option DType) (sh : List Nat) (bits : Int) :
    packedTensor udtype none (some sh) bits = packedTensor udtype (some sh) none bits ∧
    packedTensor udtype (some sh) (some sh) bits = packedTensor udtype (some sh) none bits ∧
    (∀ sh', sh' ≠ sh → packedTensor udtype (some sh) (some sh') bits = .error .valueError) ∧
    packedTensor udtype none none bits = .error .typeError ∧
    (¬ (1 ≤ bits ∧ bits ≤ 32) → packedTensor udtype (some sh) none bits = .error .valueError) := by
  refine ⟨?_, ?_, fun sh' h => ?_, rfl, fun h => ?_⟩
  · unfold packedTensor
    simp
  · unfold packedTensor
    simp
  · unfold packedTensor
    simp only [Option.orElse_some, Option.getD_some]
    exact if_pos ⟨rfl, fun e => h (Option.some.inj e)⟩
  · unfold packedTensor
    simp only [Option.isSome_none, Bool.false_eq_true, false_and, if_false]
    unfold init
    rw [if_neg (by simp), if_neg (by simp [bitsOk]), if_pos (by simp only [bitsOk]; simp; omega)]

/-- Both spellings with one shape, and with two. -/
example : (packedTensor none (some [3]) (some [3]) 4).map (·.ish) = .ok [2] ∧ packedTensor none (some [3]) (some [4]) 4 = .error .valueError :=
  ⟨rfl, rfl⟩

/-- A class of array fields that declare `bits`, with scalar nested fields: the classes that can be packed. -/
def ViewOf : Cls → Cls → Prop
  | .nil, .nil => True
  | .leaf n d rest, .leaf n' e rest' => n' = n ∧ e.ish = d.ish ∧ e.bits = none ∧ e.validator = none ∧ e.factory = none ∧ e.fill = some (.int 0) ∧
      (∀ b, d.bits = some b → (b = 1 → e.dtype = .bool) ∧ (2 ≤ b → b ≤ 8 → e.dtype = .uint 8) ∧ (9 ≤ b → e.dtype = .uint 32)) ∧ ViewOf rest rest'
  | .nested n _ _ _ sub rest, .nested n' ish' _ _ sub' rest' => n' = n ∧ ish' = [] ∧ ViewOf sub sub' ∧ ViewOf rest rest'
  | _, _ => False

/-- **C56.**  The class that `unpack` builds has the same field names and shapes; its fields have the fill value 0, no `bits`, and the dtypes `bool`
(one bit), `uint8` (up to eight) or `uint32`. -/
theorem view_class {fuel : Nat} {c : Cls} (h : c.NestedOk) : ∃ v, viewFields (decorate (fuel + 1) .auto false) c = .ok v ∧ ViewOf c v := by
  refine ⟨viewCls c, viewFields_ok h, ?_⟩
  clear h
  induction c with
  | nil => trivial
  | leaf n d rest ih =>
    refine ⟨rfl, rfl, rfl, rfl, rfl, rfl, ?_, ih⟩
    intro b hb
    simp only [viewFD, hb, Option.getD_some, unpackDtype]
    refine ⟨fun h => by rw [if_pos h], fun h h' => by rw [if_neg (by omega), if_pos h'], fun h => by rw [if_neg (by omega), if_neg (by omega)]⟩
  | nested n ish cid v sub rest ih1 ih2 => exact ⟨rfl, rfl, ih1, ih2⟩

end Desc

namespace DescSpell

open Io (DType Arr)
open Desc (Err Fv Val Mode)

/-- The arrays of an instance and the declared dtypes of their fields. -/
def Arrays (p : DType → Arr → Prop) : SCls → Val → Prop
  | .nil, .nil => True
  | .leaf _ dt _ _ _ rest, .arr _ a r => (∀ t, expected dt = some t → p t a) ∧ Arrays p rest r
  | .nested _ _ _ _ sub rest, .obj _ _ x r => Arrays p sub x ∧ Arrays p rest r
  | _, _ => False

/-- The dtype JAX gives to an array asked for with dtype `t` when `x64` is off. -/
def Narrowed : DType → DType → Prop
  | .int 64, u => u = .int 32
  | .uint 64, u => u = .uint 32
  | .float 64, u => u = .float 32
  | t, u => u = t

/-- **C97.**  What `default` returns: with `x64` on every array has the declared dtype; with `x64` off 64-bit dtypes become the 32-bit dtype of the
same kind and all others are kept. -/
theorem default_dtypes {conv : DType → Fv → Option Int} {v : Bool} {c : SCls} {b : List Nat} {x : Val} :
    (default true conv v c b = .ok x → Arrays (fun t a => a.dtype = t) c x) ∧
    (default false conv v c b = .ok x → Arrays (fun t a => Narrowed t a.dtype) c x) := by
  have hcon : ∀ {x64 v c x y}, construct x64 v c x = .ok y → y = x := by
    intro x64 v c x y h
    unfold construct at h
    by_cases hv : v = true
    · rw [if_pos hv] at h
      cases hk : check x64 c x with
      | error e => rw [hk] at h; cases h
      | ok u => rw [hk] at h; cases h; rfl
    · rw [if_neg hv] at h; cases h; rfl
  have key : ∀ (x64 : Bool) (c : SCls) (b : Option (List Nat)) (x : Val), defaultFields x64 conv c b = .ok x →
      Arrays (fun t a => a.dtype = canon x64 t) c x := by
    intro x64 c
    induction c with
    | nil => intro b x h; cases h; trivial
    | leaf n dt sh fill bits rest ih =>
      intro b x h
      simp only [defaultFields] at h
      generalize hs : (b.bind fun b => (wrapShape sh).map (b ++ ·)) = s at h
      cases hf : full x64 conv s dt (fillOf dt fill) with
      | error e => rw [hf] at h; cases h
      | ok a =>
        rw [hf] at h
        simp only at h
        cases hr : defaultFields x64 conv rest b with
        | error e => rw [hr] at h; cases h
        | ok r =>
          rw [hr] at h
          cases h
          refine ⟨fun t ht => ?_, ih b r hr⟩
          have hdt : dt ≠ .complexType := by rintro rfl; cases ht
          unfold full at hf
          cases s with
          | none => cases hf
          | some s =>
            generalize fillOf dt fill = fv at hf
            cases fv with
            | none => cases hf
            | some w =>
              simp only [if_neg hdt, ht] at hf
              cases hc : conv (canon x64 t) w with
              | none => rw [hc] at hf; cases hf
              | some e => rw [hc] at hf; cases hf; rfl
    | nested n sh cid v sub rest ih1 ih2 =>
      intro b x h
      simp only [defaultFields] at h
      generalize hs : (b.bind fun b => (wrapShape sh).map (b ++ ·)) = s at h
      cases hf : defaultFields x64 conv sub s with
      | error e => rw [hf] at h; cases h
      | ok y =>
        rw [hf] at h
        simp only at h
        cases hk : construct x64 v sub y with
        | error e => rw [hk] at h; cases h
        | ok y' =>
          rw [hk] at h
          simp only at h
          cases hr : defaultFields x64 conv rest b with
          | error e => rw [hr] at h; cases h
          | ok r =>
            rw [hr] at h
            cases h
            have := hcon hk
            subst this
            exact ⟨ih1 _ _ hf, ih2 _ _ hr⟩
  have hd : ∀ x64, default x64 conv v c b = .ok x → Arrays (fun t a => a.dtype = canon x64 t) c x := by
    intro x64 h
    unfold default at h
    cases hf : defaultFields x64 conv c (some b) with
    | error e => rw [hf] at h; cases h
    | ok y =>
      rw [hf] at h
      have := hcon h
      subst this
      exact key _ _ _ _ hf
  have mono : ∀ (p q : DType → Arr → Prop), (∀ t a, p t a → q t a) → ∀ (c : SCls) (x : Val), Arrays p c x → Arrays q c x := by
    intro p q hpq c
    induction c with
    | nil => intro x h; cases x <;> first | trivial | exact h.elim
    | leaf n dt sh fill bits rest ih =>
      intro x h
      cases x with
      | arr n' a r => exact ⟨fun t ht => hpq _ _ (h.1 t ht), ih r h.2⟩
      | nil => exact h.elim
      | obj => exact h.elim
      | other => exact h.elim
    | nested n sh cid v sub rest ih1 ih2 =>
      intro x h
      cases x with
      | obj n' cid' y r => exact ⟨ih1 y h.1, ih2 r h.2⟩
      | nil => exact h.elim
      | arr => exact h.elim
      | other => exact h.elim
  refine ⟨fun h => mono _ _ (fun t a ha => ha) c x (hd true h), fun h => mono _ _ (fun t a ha => ?_) c x (hd false h)⟩
  rw [ha]
  cases t with
  | bool => rfl
  | ext n => rfl
  | int w => by_cases h : w = 64
             · subst h; rfl
             · simp [canon, Narrowed, h]
  | uint w => by_cases h : w = 64
              · subst h; rfl
              · simp [canon, Narrowed, h]
  | float w => by_cases h : w = 64
               · subst h; rfl
               · simp [canon, Narrowed, h]

end DescSpell

namespace HashModel

/-- **C85.**  A `bool` leaf is the numbers 0 and 1, so it survives packing at every width of at least one bit; an unsigned leaf of 8, 16, 32 or 64 bits
survives packing at every width of at least its own. -/
theorem leaf_fits (d : DLeaf) (bits : Nat)
    (h : (∃ l, d.leaf = .bool l ∧ 1 ≤ bits) ∨ (d.signed = false ∧ ((∃ l, d.leaf = .w8 l ∧ 8 ≤ bits) ∨ (∃ l, d.leaf = .w16 l ∧ 16 ≤ bits) ∨
      (∃ l, d.leaf = .w32 l ∧ 32 ≤ bits) ∨ (∃ l, d.leaf = .w64 l ∧ 64 ≤ bits)))) : ∀ z ∈ d.ints, 0 ≤ z ∧ z < 2 ^ bits := by
  have hp : ∀ {k : Nat}, k ≤ bits → (2 : Int) ^ k ≤ 2 ^ bits := fun hk => by exact_mod_cast Nat.pow_le_pow_right (by decide) hk
  have hv : ∀ {k : Nat} (v : BitVec k), k ≤ bits → 0 ≤ num false v ∧ num false v < 2 ^ bits := by
    intro k v hk
    have h1 : (v.toNat : Int) < 2 ^ k := by exact_mod_cast v.isLt
    exact ⟨Int.natCast_nonneg _, Int.lt_of_lt_of_le h1 (hp hk)⟩
  intro z hz
  unfold DLeaf.ints at hz
  rcases h with ⟨l, hl, hb⟩ | ⟨hs, ⟨l, hl, hb⟩ | ⟨l, hl, hb⟩ | ⟨l, hl, hb⟩ | ⟨l, hl, hb⟩⟩ <;> rw [hl] at hz <;>
    obtain ⟨b, _, rfl⟩ := List.mem_map.1 hz
  · have := hp hb
    cases b <;> simp <;> omega
  all_goals
    rw [hs]
    exact hv b hb

example : (⟨false, .bool [true, false]⟩ : DLeaf).ints = [1, 0] ∧ (⟨true, .w8 [255#8]⟩ : DLeaf).ints = [-1] := by decide

end HashModel

namespace MergeModel

variable {V : Type v}

theorem slices_lengths (row : List V) : ∀ (ss : List Nat) (start : Nat), start + ss.sum ≤ row.length → (slices row start ss).map List.length = ss
  | [], _, _ => rfl
  | s :: ss, start, h => by
    rw [List.sum_cons] at h
    rw [slices, List.map_cons, slices_lengths row ss (start + s) (by omega), List.length_take, List.length_drop, Nat.min_eq_left (by omega)]

theorem nextPow2_spec (n : Nat) : (∃ k, nextPow2 n = 2 ^ k) ∧ n ≤ nextPow2 n ∧ nextPow2 n < 2 * max 1 n := by
  unfold nextPow2
  by_cases h : n ≤ 1
  · rw [if_pos h]; exact ⟨⟨0, rfl⟩, h, by omega⟩
  · rw [if_neg h]
    refine ⟨⟨_, rfl⟩, ?_⟩
    unfold bitLength
    rw [if_neg (by omega)]
    have h1 := Nat.log2_self_le (n := n - 1) (by omega)
    have h2 := Nat.lt_log2_self (n := n - 1)
    rw [Nat.pow_succ] at *
    omega

/-- **C15.**  What the kernel is handed for a value row, in every packing mode: pieces whose widths are powers of two (the kernel's block copies need
that), together less than twice as wide as the row; `scalar` and `shard` add nothing. -/
theorem pack_row_widths (zero : V) (mode : PackMode) (row : List V) :
    (∀ p ∈ packRow zero mode row.length row, ∃ k, p.length = 2 ^ k) ∧
    ((packRow zero mode row.length row).map List.length).sum < 2 * max 1 row.length ∧
    (mode ≠ .pad → ((packRow zero mode row.length row).map List.length).sum = row.length) := by
  have hs : ∀ ss : List Nat, ss.sum = row.length → (∀ s ∈ ss, ∃ k, s = 2 ^ k) → (∀ p ∈ slices row 0 ss, ∃ k, p.length = 2 ^ k) ∧
      ((slices row 0 ss).map List.length).sum = row.length := by
    intro ss h1 h2
    have h3 := slices_lengths row ss 0 (by omega)
    refine ⟨fun p hp => h2 _ ?_, by rw [h3, h1]⟩
    rw [← h3]
    exact List.mem_map_of_mem hp
  cases mode with
  | scalar =>
    have := hs (List.replicate row.length 1) (by simp) (fun s h => ⟨0, List.eq_of_mem_replicate h⟩)
    exact ⟨this.1, by simp only [packRow]; omega, fun _ => this.2⟩
  | shard =>
    have := hs (shardSizes row.length) (shardSizes_sum _) (shardSizes_pow2 _)
    exact ⟨this.1, by simp only [packRow]; omega, fun _ => this.2⟩
  | pad =>
    obtain ⟨h1, h2, h3⟩ := nextPow2_spec row.length
    have hl : (row ++ List.replicate (nextPow2 row.length - row.length) zero).length = nextPow2 row.length := by
      rw [List.length_append, List.length_replicate]; omega
    refine ⟨?_, ?_, fun h => absurd rfl h⟩
    · intro p hp
      rw [packRow, List.mem_singleton] at hp
      rw [hp, hl]
      exact h1
    · simp only [packRow, List.map_cons, List.map_nil, List.sum_cons, List.sum_nil, hl]
      omega

/-- **C15.**  The default packing mode leaves a row whose width is a power of two in one unpadded piece, whatever `scalar_max` is. -/
theorem auto_pow2_untouched (zero : V) (scalarMax k : Nat) (row : List V) (h : row.length = 2 ^ k) :
    packRow zero (autoMode scalarMax row.length) row.length row = [row] := by
  unfold autoMode
  have hp : row.length = 2 ^ row.length.log2 ∧ row.length > 0 := by
    rw [h, Nat.log2_two_pow]
    exact ⟨rfl, Nat.two_pow_pos k⟩
  rw [if_pos hp, packRow]
  have hn : nextPow2 row.length = row.length := by
    rw [h]
    cases k with
    | zero => rfl
    | succ k =>
      have h0 : 0 < 2 ^ k := Nat.two_pow_pos k
      have h1 := Nat.log2_self_le (n := 2 ^ (k + 1) - 1) (by rw [Nat.pow_succ]; omega)
      have h2 := Nat.lt_log2_self (n := 2 ^ (k + 1) - 1)
      have h3 : (2 ^ (k + 1) - 1).log2 + 1 = k + 1 := by
        have a : (2 ^ (k + 1) - 1).log2 < k + 1 := (Nat.pow_lt_pow_iff_right (a := 2) (by decide)).1 (by rw [Nat.pow_succ] at *; omega)
        have b : k < (2 ^ (k + 1) - 1).log2 + 1 := (Nat.pow_lt_pow_iff_right (a := 2) (by decide)).1 (by
          have : 2 ^ k ≤ 2 ^ (k + 1) - 1 := by rw [Nat.pow_succ]; omega
          omega)
        omega
      unfold nextPow2 bitLength
      rw [Nat.pow_succ] at *
      rw [if_neg (by omega), if_neg (by omega), h3, Nat.pow_succ]
  rw [hn, Nat.sub_self]
  simp

example : packRow 0 (autoMode 2 4) 4 [1, 2, 3, 4] = [[1, 2, 3, 4]] ∧ (packRow 0 (autoMode 2 3) 3 [1, 2, 3]).map List.length = [4] ∧
    ((shardSizes 3).sum = 3) := by
  exact ⟨by decide +kernel, by decide +kernel, shardSizes_sum 3⟩

end MergeModel
