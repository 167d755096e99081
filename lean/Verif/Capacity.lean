import Verif.HTConfluence
import Verif.BgpqOrder

/-!
# Containers hold as many items as they were built for (C64)
-/

namespace HashTable

variable {α : Type u} [DecidableEq α] {K : Type v} [KeyInf K] {H : Hasher α}

/-- The number of buckets is the least power of two that is at least `hash_size_multiplier * capacity / bucket_size`. -/
theorem internalCap_spec (capacity bs mult : Nat) :
    (∃ k, internalCap capacity bs mult = 2 ^ k) ∧ mult * capacity / bs ≤ internalCap capacity bs mult ∧
    ∀ k, mult * capacity / bs ≤ 2 ^ k → internalCap capacity bs mult ≤ 2 ^ k := by
  unfold internalCap
  simp only
  generalize mult * capacity / bs = t
  by_cases h : t ≤ 1
  · rw [if_pos h]
    exact ⟨⟨0, rfl⟩, h, fun k _ => Nat.one_le_two_pow⟩
  · rw [if_neg h]
    refine ⟨⟨_, rfl⟩, ?_, ?_⟩
    · have := Nat.lt_log2_self (n := t - 1)
      omega
    · intro k hk
      apply Nat.pow_le_pow_right (by omega)
      have h1 : 2 ^ Nat.log2 (t - 1) ≤ t - 1 := Nat.log2_self_le (by omega)
      have h2 : 2 ^ Nat.log2 (t - 1) < 2 ^ k := by omega
      have := (Nat.pow_lt_pow_iff_right (by omega)).1 h2
      omega

/-- With `hash_size_multiplier` at least 2 (the default) a table has at least `capacity` slots. -/
theorem slots_ge_capacity {capacity bs mult : Nat} (hb : 1 ≤ bs) (hm : 2 ≤ mult) :
    capacity ≤ internalCap capacity bs mult * bs := by
  obtain ⟨⟨k, hk⟩, h1, _⟩ := internalCap_spec capacity bs mult
  have hpos : 1 ≤ internalCap capacity bs mult := by rw [hk]; exact Nat.one_le_two_pow
  have h2 := Nat.div_add_mod (mult * capacity) bs
  have h3 := Nat.mod_lt (mult * capacity) (show bs > 0 by omega)
  have h4 : bs * (mult * capacity / bs) ≤ bs * internalCap capacity bs mult := Nat.mul_le_mul_left _ h1
  rw [Nat.mul_comm bs (internalCap _ _ _)] at h4
  have h5 : 2 * capacity ≤ mult * capacity := Nat.mul_le_mul_right _ hm
  have h6 : 1 * bs ≤ internalCap capacity bs mult * bs := Nat.mul_le_mul_right _ hpos
  by_cases hc : capacity ≤ bs
  · omega
  · omega

/-- **C64 (hash table).**  A table built for `capacity` items (multiplier at least 2) stores every history that offers at
most `capacity` distinct items; single inserts need nothing else, batches the conditions of C62. -/
theorem table_holds_capacity (d : α) {capacity bs mult : Nat} {mp : Option Nat} (hv : ValidParams capacity bs mult mp)
    (hm : 2 ≤ mult) (ops : List (Op α K)) (U : List α) (hU : U.length ≤ capacity) (hoff : ∀ x, AllOffered ops x → x ∈ U)
    (he : ∀ op ∈ ops, Exact H op) (ht : ∀ op ∈ ops, Thorough H (build d capacity bs mult mp) op) (x : α) :
    (lookup H (exec H (build d capacity bs mult mp) ops) x).2 = true ↔ AllOffered ops x :=
  (contents_are_offered d hv ops U (Nat.le_trans hU (slots_ge_capacity hv.bs_pos hm)) hoff he ht).1 x

/-- **C64 (single inserts).**  Insert the items of any list with at most `capacity` entries one by one: exactly they are
found, whatever the hash functions. -/
theorem single_inserts_hold (d : α) {capacity bs mult : Nat} {mp : Option Nat} (hv : ValidParams capacity bs mult mp)
    (hm : 2 ≤ mult) (xs : List α) (hx : xs.length ≤ capacity) (x : α) :
    (lookup H (exec H (build d capacity bs mult mp) (xs.map (Op.insert (K := Option Nat)))) x).2 = true ↔ x ∈ xs := by
  have hoff : ∀ y, AllOffered (xs.map (Op.insert (K := Option Nat))) y ↔ y ∈ xs := by
    intro y
    unfold AllOffered
    constructor
    · rintro ⟨op, hop, h⟩
      obtain ⟨z, hz, rfl⟩ := List.mem_map.1 hop
      have : z = y := h
      rw [← this]; exact hz
    · intro h; exact ⟨_, List.mem_map_of_mem h, rfl⟩
  rw [table_holds_capacity d hv hm _ xs hx (fun y hy => (hoff y).1 hy) ?_ ?_, hoff]
  · intro op hop; obtain ⟨z, _, rfl⟩ := List.mem_map.1 hop; trivial
  · intro op hop; obtain ⟨z, _, rfl⟩ := List.mem_map.1 hop; trivial

/-- **C64 is false** with `hash_size_multiplier = 1`: a table built for 11 items with buckets of 8 has one bucket, so 8
slots; of 11 items inserted, 8 are stored. -/
theorem capacity_multiplier_one_false :
    let T := exec (K := Option Nat) exHasher (build 0 11 8 1 none) ((List.range 11).map .insert)
    ValidParams 11 8 1 none ∧ T.size = 8 ∧ T.cap * T.bs = 8 ∧ (lookup exHasher T 9).2 = false := by
  refine ⟨⟨by omega, by omega, by decide +kernel, fun m h => by cases h⟩, ?_⟩
  decide +kernel

/-- Non-vacuity: the default parameters of `HashTable.build` for a million items are valid. -/
example : ValidParams 1000000 8 2 none ∧ internalCap 1000000 8 2 = 2 ^ 18 := by
  have h : internalCap 1000000 8 2 = 2 ^ 18 := by decide +kernel
  exact ⟨⟨by omega, by omega, by rw [h]; omega, fun m h => by cases h⟩, h⟩

end HashTable

namespace Bgpq

open BgpqSpec

variable {K : Type u} [KeyInf K] {V : Type v}

/-- `max_size` is `total_size` rounded up to a multiple of `batch_size`. -/
theorem maxSize_spec (total batch : Nat) (hb : 0 < batch) (dflt : V) :
    total ≤ (build total batch dflt : Heap K V).maxSize ∧ (build total batch dflt : Heap K V).maxSize < total + batch ∧
    (build total batch dflt : Heap K V).maxSize % batch = 0 := by
  have h1 := Nat.div_add_mod total batch
  have h2 := Nat.mod_lt total hb
  rw [Nat.mul_comm] at h1
  unfold build Heap.maxSize
  simp only
  by_cases h : total % batch = 0
  · rw [if_pos h]
    refine ⟨by omega, by omega, Nat.mul_mod_left _ _⟩
  · rw [if_neg h]
    refine ⟨by rw [Nat.add_mul]; omega, by rw [Nat.add_mul]; omega, Nat.mul_mod_left _ _⟩

/-- **C64 (BGPQ).**  A queue built for `total_size` items loses nothing while it holds at most `total_size` items, however
the items are spread over partly filled batches and whatever was deleted before. -/
theorem queue_holds_total {total batch : Nat} (ht : 0 < total) (hb : 0 < batch) {dflt : V}
    (hcap : (build total batch dflt : Heap K V).maxSize + batch ≤ 2 ^ 32) {h : Heap K V}
    (hr : Reachable total batch dflt h) (blocks : List (List (K × V))) (hbl : ∀ b ∈ blocks, b.length = batch)
    (hfit : (contents h).length + (items blocks.flatten).length ≤ total) :
    (contents (insertAll h blocks)).Perm (contents h ++ items blocks.flatten) ∧
    (insertAll h blocks).size = (contents h).length + (items blocks.flatten).length := by
  have hm := (maxSize_spec (K := K) total batch hb dflt).1
  obtain ⟨a1, a2⟩ := insertAll_contents ht hb hcap hr blocks hbl (by
    rw [(reachable_inv ht hb hcap hr).2.2]; omega)
  refine ⟨a2, ?_⟩
  rw [size_contents ht hb hcap a1, a2.length_eq, List.length_append]

/-- Non-vacuity: five items in four partly filled batches, in a queue built for five. -/
example :
    let blocks : List (List (Option Nat × Nat)) :=
      [[(some 9, 1), (none, 2)], [(some 5, 5), (none, 0)], [(some 3, 3), (some 4, 4)], [(none, 7), (some 8, 8)]]
    (∀ b ∈ blocks, b.length = 2) ∧ (items blocks.flatten).length ≤ 5 ∧
    (insertAll (build 5 2 0) blocks).size = 5 ∧ (build 5 2 0 : Heap (Option Nat) Nat).maxSize = 6 := by
  decide +kernel

end Bgpq
