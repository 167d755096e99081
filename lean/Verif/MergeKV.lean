import Verif.MergeProps

/-!
# The key-value merge kernel (GPU) and its value packing
-/

namespace MergeModel

open MergeSpec

variable {K : Type u} [KeyLE K] {V : Type v}

/-! ## Packing of value rows (parallel.py:397-502)

A value leaf is a list of rows, each the flattened inner array of `inner_size` elements.  The kernel
copies row `r` of every packed leaf from the same source row, so packing can be described row-wise:
`packRow` gives the pieces of one row (one per packed leaf), `restoreRow` reassembles them. -/

/-- Packing modes (`pack_specs`, parallel.py:423-467). -/
inductive PackMode where
  | scalar
  | shard
  | pad
deriving DecidableEq

/-- Sizes of the shards: powers of two, largest first (parallel.py:444-449).
`1 << (remaining.bit_length() - 1)` is `2 ^ Nat.log2 remaining` for `remaining > 0`. -/
def shardSizes (remaining : Nat) : List Nat :=
  if h : remaining > 0 then 2 ^ remaining.log2 :: shardSizes (remaining - 2 ^ remaining.log2) else []
termination_by remaining
decreasing_by
  have : 0 < 2 ^ remaining.log2 := Nat.two_pow_pos _
  omega

/-- `bit_length` of a Python int. -/
def bitLength (n : Nat) : Nat := if n = 0 then 0 else n.log2 + 1

/-- `_next_power_of_two` (parallel.py:404-407). -/
def nextPow2 (v : Nat) : Nat := if v ≤ 1 then 1 else 2 ^ bitLength (v - 1)

/-- Slices `row[start : start + shard]` for consecutive shards (parallel.py:451-455). -/
def slices (row : List V) : Nat → List Nat → List (List V)
  | _, [] => []
  | start, s :: ss => (row.drop start).take s :: slices row (start + s) ss

/-- Pieces of one row (parallel.py:436-467); `zero` is the constant of `jnp.pad`. -/
def packRow (zero : V) (mode : PackMode) (innerSize : Nat) (row : List V) : List (List V) :=
  match mode with
  | .scalar => slices row 0 (List.replicate innerSize 1)
  | .shard => slices row 0 (shardSizes innerSize)
  | .pad => [row ++ List.replicate (nextPow2 innerSize - innerSize) zero]

/-- Restoring one row (parallel.py:481-500): stack / concatenate the pieces, or trim the padding. -/
def restoreRow (mode : PackMode) (innerSize : Nat) (pieces : List (List V)) : List V :=
  match mode with
  | .scalar => pieces.flatten
  | .shard => pieces.flatten
  | .pad => ((pieces[0]?).getD []).take innerSize

/-- Mode selection (parallel.py:423-431); `auto` is the default packing mode. -/
def autoMode (scalarMax innerSize : Nat) : PackMode :=
  if innerSize = 2 ^ innerSize.log2 ∧ innerSize > 0 then .pad
  else if innerSize ≤ scalarMax then .shard else .pad

theorem slices_flatten (row : List V) (ss : List Nat) (start : Nat) :
    (slices row start ss).flatten = (row.drop start).take ss.sum := by
  induction ss generalizing start with
  | nil => simp [slices]
  | cons s ss ih =>
    rw [slices, List.flatten_cons, ih, List.sum_cons, List.take_add, List.drop_drop]

theorem two_pow_log2_le {n : Nat} (h : 0 < n) : 2 ^ n.log2 ≤ n :=
  Nat.log2_self_le (by omega)

theorem shardSizes_sum (n : Nat) : (shardSizes n).sum = n := by
  fun_induction shardSizes n with
  | case1 r h ih =>
    rw [List.sum_cons, ih]
    have := two_pow_log2_le h
    omega
  | case2 r h => simp; omega

/-- Every packed piece has a power-of-two number of columns (what the kernel's block copies need). -/
theorem shardSizes_pow2 (n : Nat) : ∀ s ∈ shardSizes n, ∃ k, s = 2 ^ k := by
  fun_induction shardSizes n with
  | case1 r h ih =>
    intro s hs
    rcases List.mem_cons.1 hs with h1 | h1
    · exact ⟨_, h1⟩
    · exact ih s h1
  | case2 r h => intro s hs; simp at hs

/-- Packing a row and restoring it is the identity, in every packing mode. -/
theorem restore_pack_row (zero : V) (mode : PackMode) (row : List V) :
    restoreRow mode row.length (packRow zero mode row.length row) = row := by
  cases mode with
  | scalar => simp [restoreRow, packRow, slices_flatten]
  | shard => simp [restoreRow, packRow, slices_flatten, shardSizes_sum]
  | pad => simp [restoreRow, packRow]

/-! ## The key-value kernel -/

/-- The record written for a (key, source index) pair. -/
def atSource (av bv : List V) (x : K × Nat) : Option (K × V) := ((av ++ bv)[x.2]?).map (fun v => (x.1, v))

theorem kernelBlockKV_eq (a : List K) (av : List V) (b : List K) (bv : List V)
    (ha : 0 < a.length) (hb : 0 < b.length) (hav : av.length = a.length) (hbv : bv.length = b.length)
    (s i j : Nat) (hi : i ≤ a.length) (hj : j ≤ b.length) :
    ((kernelBlockKV a av b bv s i j).take ((a.length - i) + (b.length - j))).map some =
      ((kernelBlock a b s i j).take ((a.length - i) + (b.length - j))).map (atSource av bv) ∧
    (kernelBlockKV a av b bv s i j).length = s := by
  induction s generalizing i j with
  | zero => simp [kernelBlockKV, kernelBlock]
  | succ s ih =>
    rw [kernelBlockKV, kernelBlock]
    have e1 : min i (a.length - 1) < a.length := by omega
    have e2 : min j (b.length - 1) < b.length := by omega
    unfold kernelStepKV kernelStep
    rw [List.getElem?_eq_getElem e1, List.getElem?_eq_getElem e2,
      List.getElem?_eq_getElem (l := av) (i := min i (a.length - 1)) (by omega),
      List.getElem?_eq_getElem (l := bv) (i := min j (b.length - 1)) (by omega)]
    dsimp only
    split
    · rename_i h1
      split
      · rename_i h2
        split at h2
        · rename_i hc
          simp only [hc, if_true] at h1
          simp only [Prod.mk.injEq, Option.some.injEq] at h1 h2
          obtain ⟨rfl, rfl, rfl⟩ := h1
          obtain ⟨rfl, rfl, rfl⟩ := h2
          by_cases hi' : i < a.length
          · have := ih (i + 1) j (by omega) hj
            have ee : min i (a.length - 1) = i := by omega
            refine ⟨?_, by simp [this.2]⟩
            rw [show a.length - i + (b.length - j) = (a.length - (i + 1) + (b.length - j)) + 1 by omega]
            simp only [List.take_succ_cons, List.map_cons, this.1]
            congr 1
            unfold atSource
            simp only [ee]
            rw [List.getElem?_append_left (by omega), List.getElem?_eq_getElem (by omega)]
            rfl
          · by_cases hj' : j < b.length
            · simp [hi'] at hc; omega
            · refine ⟨?_, ?_⟩
              · rw [show a.length - i + (b.length - j) = 0 by omega]; simp
              · have hi2 : i = a.length := by omega
                have hj2 : j = b.length := by omega
                -- past the end only the number of writes matters
                have hlen : ∀ s i j, (kernelBlockKV a av b bv s i j).length = s := by
                  intro s
                  induction s with
                  | zero => intro i j; simp [kernelBlockKV]
                  | succ s ih =>
                    intro i j
                    rw [kernelBlockKV]
                    unfold kernelStepKV
                    rw [List.getElem?_eq_getElem (l := a) (i := min i (a.length - 1)) (by omega),
                      List.getElem?_eq_getElem (l := b) (i := min j (b.length - 1)) (by omega),
                      List.getElem?_eq_getElem (l := av) (i := min i (a.length - 1)) (by omega),
                      List.getElem?_eq_getElem (l := bv) (i := min j (b.length - 1)) (by omega)]
                    dsimp only
                    split
                    · rename_i h
                      split at h <;> simp [ih]
                    · rename_i h
                      split at h <;> simp at h
                simp [hlen]
        · rename_i hc
          simp only [hc] at h1
          simp only [Prod.mk.injEq, Option.some.injEq, Bool.false_eq_true, if_false] at h1 h2
          obtain ⟨rfl, rfl, rfl⟩ := h1
          obtain ⟨rfl, rfl, rfl⟩ := h2
          have hj' : j < b.length := by
            simp at hc; exact hc.1
          have := ih i (j + 1) hi (by omega)
          have ee : min j (b.length - 1) = j := by omega
          refine ⟨?_, by simp [this.2]⟩
          rw [show a.length - i + (b.length - j) = (a.length - i + (b.length - (j + 1))) + 1 by omega]
          simp only [List.take_succ_cons, List.map_cons, this.1]
          congr 1
          unfold atSource
          simp only [ee]
          rw [List.getElem?_append_right (by omega)]
          simp only [hav, Nat.add_sub_cancel_left]
          rw [List.getElem?_eq_getElem (by omega)]
          rfl
      · rename_i h2; split at h2 <;> simp at h2
    · rename_i h1; split at h1 <;> simp at h1

/-- The GPU key-value kernel returns the same (key, value) pairs as `merge_sort_split` on every other
backend, for every block size and all non-empty sorted inputs (`n, m ≥ 1`). -/
theorem merge_kv_eq (minV maxV : K) (bs : Nat) (hbs : 0 < bs) (a b : List (K × V))
    (ha : Sorted (a.map Prod.fst)) (hb : Sorted (b.map Prod.fst))
    (hna : a ≠ []) (hnb : b ≠ []) :
    mergeParallelKV minV maxV bs (a.map Prod.fst) (a.map Prod.snd) (b.map Prod.fst)
      (b.map Prod.snd) = (mergeSplit a b).1 ++ (mergeSplit a b).2 := by
  have hla : 0 < a.length := List.length_pos_iff.2 hna
  have hlb : 0 < b.length := List.length_pos_iff.2 hnb
  have hinj : ∀ {l l' : List (K × V)}, l.map some = l'.map some → l = l' := by
    intro l l' h
    have := congrArg (List.filterMap id) h
    simpa [List.filterMap_map] using this
  apply hinj
  -- the reference list
  have href : (mergeSplit a b).1 ++ (mergeSplit a b).2 = sortKeyVal (a ++ b) := by
    simp [mergeSplit]
  have hpair : (sortKeyVal (a ++ b)).map some =
      (refMerge (a.map Prod.fst) (b.map Prod.fst)).map (atSource (a.map Prod.snd) (b.map Prod.snd)) := by
    rw [← mergeSortSplitIdx_eq_ref ha hb]
    unfold mergeSortSplitIdx
    rw [sortKeyVal_eq, sortKeyVal_eq]
    let le' : Option (K × V) → Option (K × V) → Bool := fun x y =>
      match x, y with
      | some x, some y => keyLE x y
      | _, _ => true
    rw [List.map_mergeSort (s := le') (by intro x _ y _; rfl),
      List.map_mergeSort (s := le') ?_]
    · congr 1
      apply List.ext_getElem?
      intro i
      simp only [List.getElem?_map, List.getElem?_zipIdx, ← List.map_append]
      cases hp : (a ++ b)[i]? with
      | none => rfl
      | some p => simp [atSource, ← List.map_append, hp]
    · intro x hx y hy
      have hget : ∀ x ∈ (a.map Prod.fst ++ b.map Prod.fst).zipIdx,
          ∃ p, atSource (a.map Prod.snd) (b.map Prod.snd) x = some p ∧ p.1 = x.1 := by
        intro x hx
        have := List.snd_lt_of_mem_zipIdx hx
        simp only [List.length_append, List.length_map] at this
        refine ⟨(x.1, ((a ++ b)[x.2]'(by simp; omega)).2), ?_, rfl⟩
        unfold atSource
        rw [← List.map_append, List.getElem?_map, List.getElem?_eq_getElem (by simp; omega)]
        rfl
      obtain ⟨p, hp, hp1⟩ := hget x hx
      obtain ⟨q, hq, hq1⟩ := hget y hy
      simp only [hp, hq, le', keyLE, hp1, hq1]
  rw [href, hpair]
  unfold mergeParallelKV
  rw [if_neg (by simp only [List.length_map]; omega)]
  rw [← mergeParallel_eq_ref minV maxV bs hbs ha hb]
  unfold mergeParallel
  rw [if_neg (by simp only [List.length_map]; omega), if_neg (by simp only [List.length_map]; omega), if_neg (by simp only [List.length_map]; omega)]
  dsimp only
  rw [List.map_take, List.map_take, List.map_flatMap, List.map_flatMap]
  -- block-wise comparison, dropping what lies beyond the end
  have hlenA : (a.map Prod.fst).length = a.length := by simp
  have hlenB : (b.map Prod.fst).length = b.length := by simp
  have aux : ∀ (L : Nat) (f g : Nat → List (Option (K × V))) (grid : Nat),
      (∀ blk, (f blk).length = bs) → (∀ blk, (g blk).length = bs) →
      (∀ blk, blk * bs < L → (f blk).take (L - blk * bs) = (g blk).take (L - blk * bs)) →
      ((List.range grid).flatMap f).take L = ((List.range grid).flatMap g).take L := by
    intro L f g grid hf hg hfg
    have hlen : ∀ (h : Nat → List (Option (K × V))), (∀ blk, (h blk).length = bs) →
        ∀ n, ((List.range n).flatMap h).length = n * bs := by
      intro h hh n
      induction n with
      | zero => simp
      | succ n ih => rw [List.range_succ, List.flatMap_append]; simp [ih, hh, Nat.succ_mul]
    induction grid with
    | zero => rfl
    | succ n ih =>
      rw [List.range_succ, List.flatMap_append, List.flatMap_append, List.take_append,
        List.take_append, ih, hlen f hf, hlen g hg]
      congr 1
      simp only [List.flatMap_cons, List.flatMap_nil, List.append_nil]
      by_cases hn : n * bs < L
      · exact hfg n hn
      · rw [show L - n * bs = 0 by omega]; simp
  have hklen : ∀ s i j, (kernelBlock (a.map Prod.fst) (b.map Prod.fst) s i j).length = s := by
    intro s i j
    have hlen : ∀ s i j, (kernelBlock (a.map Prod.fst) (b.map Prod.fst) s i j).length = s := by
      intro s
      induction s with
      | zero => intro i j; simp [kernelBlock]
      | succ s ih =>
        intro i j
        rw [kernelBlock, kernelStep_eq _ _ (by simp; omega) (by simp; omega)]
        split
        · rename_i h
          split at h <;> simp [ih]
        · rename_i h
          split at h <;> simp at h
    exact hlen s i j
  have hkvlen : ∀ s i j, (kernelBlockKV (a.map Prod.fst) (a.map Prod.snd) (b.map Prod.fst)
      (b.map Prod.snd) s i j).length = s := by
    intro s
    induction s with
    | zero => intro i j; simp [kernelBlockKV]
    | succ s ih =>
      intro i j
      rw [kernelBlockKV]
      unfold kernelStepKV
      rw [List.getElem?_eq_getElem (l := a.map Prod.fst) (i := min i ((a.map Prod.fst).length - 1)) (by simp; omega),
        List.getElem?_eq_getElem (l := b.map Prod.fst) (i := min j ((b.map Prod.fst).length - 1)) (by simp; omega),
        List.getElem?_eq_getElem (l := a.map Prod.snd) (i := min i ((a.map Prod.fst).length - 1)) (by simp; omega),
        List.getElem?_eq_getElem (l := b.map Prod.snd) (i := min j ((b.map Prod.fst).length - 1)) (by simp; omega)]
      dsimp only
      split
      · rename_i h
        split at h <;> simp [ih]
      · rename_i h
        split at h <;> simp at h
  apply aux
  · intro blk; simp [hkvlen]
  · intro blk; simp [hklen]
  · intro blk hblk
    obtain ⟨hv, hs⟩ := partition_valid minV maxV (blk * bs) (a.map Prod.fst) (b.map Prod.fst) (by omega)
    have h := (kernelBlockKV_eq (a.map Prod.fst) (a.map Prod.snd) (b.map Prod.fst) (b.map Prod.snd)
      (by simp; omega) (by simp; omega) (by simp) (by simp) bs _ _ hv.1 hv.2.1).1
    have hi := hv.1
    have hj := hv.2.1
    rw [← List.map_take, ← List.map_take,
      show (a.map Prod.fst).length + (b.map Prod.fst).length - blk * bs =
        (a.map Prod.fst).length - (binarySearchPartition minV maxV (blk * bs) (a.map Prod.fst) (b.map Prod.fst)).1
        + ((b.map Prod.fst).length - (binarySearchPartition minV maxV (blk * bs) (a.map Prod.fst) (b.map Prod.fst)).2) by omega]
    exact h

/-- Non-vacuity: three keys with a tie across the inputs, two blocks. -/
example : mergeParallelKV (some 0) none 2 [some 1, some 3] ["a", "b"] [some 1] ["c"]
    = [(some 1, "a"), (some 1, "c"), (some 3, "b")] := by decide +kernel
example : packRow 0 .shard 3 [7, 8, 9] = [[7, 8], [9]] ∧ packRow 0 .pad 3 [7, 8, 9] = [[7, 8, 9, 0]] := by
  decide +kernel

end MergeModel
