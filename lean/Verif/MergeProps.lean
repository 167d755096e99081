import Verif.MergeLemmas

/-!
# Merge backends: properties C13, C14, C15
-/

namespace MergeSpec

variable {K : Type u} [KeyLE K] {V : Type v}

/-- `a` is sorted (non-decreasing). -/
def Sorted (a : List K) : Prop := a.Pairwise (fun x y => KeyCmp.le x y = true)

/-- `out` is the stable sorted merge of `a` and `b`, as (key, source index) pairs: a permutation of
the concatenation tagged with positions, ordered by key and, among equivalent keys, by position
(so `a` before `b`). -/
structure IsStableMerge (a b : List K) (out : List (K × Nat)) : Prop where
  perm : out.Perm (a ++ b).zipIdx
  sorted : out.Pairwise (fun x y => KeyCmp.le x.1 y.1 = true ∧
    (KeyCmp.le y.1 x.1 = true → x.2 < y.2))

end MergeSpec

namespace MergeModel

open MergeSpec

variable {K : Type u} [KeyLE K] {V : Type v}

theorem lex_pairwise_iff {l : List (K × Nat)} (hn : (l.map Prod.snd).Nodup)
    (h : l.Pairwise (fun x y => lexLE x y = true)) :
    l.Pairwise (fun x y => KeyCmp.le x.1 y.1 = true ∧ (KeyCmp.le y.1 x.1 = true → x.2 < y.2)) := by
  have hn' : l.Pairwise (fun x y => x.2 ≠ y.2) := by
    have := List.pairwise_map.1 hn; exact this
  refine (h.and hn').imp ?_
  intro x y hxy
  obtain ⟨h1, h2⟩ := hxy
  simp only [lexLE, Bool.and_eq_true, Bool.or_eq_true, Bool.not_eq_true', decide_eq_true_eq] at h1
  refine ⟨h1.1, fun h3 => ?_⟩
  rcases h1.2 with h4 | h4
  · rw [h3] at h4; simp at h4
  · omega

theorem zipIdx_snd_nodup {α : Type u} (l : List α) (s : Nat) : ((l.zipIdx s).map Prod.snd).Nodup := by
  rw [List.zipIdx_map_snd]; exact List.nodup_range'

theorem mergeSortSplitIdx_stable (a b : List K) : IsStableMerge a b (mergeSortSplitIdx a b) := by
  refine ⟨sortKeyVal_perm _, ?_⟩
  apply lex_pairwise_iff
  · exact (((sortKeyVal_perm (a ++ b).zipIdx).map Prod.snd).nodup_iff).2 (zipIdx_snd_nodup _ _)
  · exact sortKeyVal_lex (zipIdx_pairwise_lt _ _)

/-- The specification determines the result. -/
theorem isStableMerge_unique {a b : List K} {o o' : List (K × Nat)} (h : IsStableMerge a b o)
    (h' : IsStableMerge a b o') : o = o' := by
  have aux : ∀ {o : List (K × Nat)}, IsStableMerge a b o → o = mergeSortSplitIdx a b := by
    intro o h
    apply eq_sortKeyVal_of_lex (zipIdx_pairwise_lt _ _) _ h.perm
    refine h.sorted.imp ?_
    intro x y hxy
    simp only [lexLE, Bool.and_eq_true, Bool.or_eq_true, Bool.not_eq_true', decide_eq_true_eq]
    refine ⟨hxy.1, ?_⟩
    cases hq : KeyCmp.le y.1 x.1
    · simp
    · right; have := hxy.2 hq; omega
  rw [aux h, aux h']

theorem range_flatMap_take {α : Type u} (l : List α) (bs : Nat) (hbs : 0 < bs)
    (f : Nat → List α) (hlen : ∀ blk, (f blk).length = bs)
    (h : ∀ blk, blk * bs < l.length → (f blk).take (l.length - blk * bs) = (l.drop (blk * bs)).take bs) :
    ∀ grid, l.length ≤ grid * bs → ((List.range grid).flatMap f).take l.length = l := by
  have main : ∀ grid, ((List.range grid).flatMap f).take l.length = l.take (grid * bs) := by
    intro grid
    induction grid with
    | zero => simp
    | succ g ih =>
      have hL : ((List.range g).flatMap f).length = g * bs := by
        clear ih
        induction g with
        | zero => simp
        | succ g ih2 => rw [List.range_succ, List.flatMap_append]; simp [ih2, hlen, Nat.succ_mul]
      rw [List.range_succ, List.flatMap_append, List.take_append, ih, hL]
      simp only [List.flatMap_cons, List.flatMap_nil, List.append_nil]
      by_cases hg : g * bs < l.length
      · rw [h g hg, Nat.succ_mul, List.take_add]
      · rw [show l.length - g * bs = 0 by omega, List.take_zero, List.append_nil,
          List.take_of_length_le (by omega), List.take_of_length_le (by rw [Nat.succ_mul]; omega)]
  intro grid hgrid
  rw [main, List.take_of_length_le hgrid]

theorem refMerge_length (a b : List K) : (refMerge a b).length = a.length + b.length := by
  simp [refMerge]

theorem mergeParallel_eq_ref (minV maxV : K) (bs : Nat) (hbs : 0 < bs) {a b : List K}
    (ha : Sorted a) (hb : Sorted b) : mergeParallel minV maxV bs a b = refMerge a b := by
  unfold mergeParallel
  split
  · have h1 : a = [] := List.eq_nil_of_length_eq_zero (by omega)
    have h2 : b = [] := List.eq_nil_of_length_eq_zero (by omega)
    subst h1; subst h2; simp [refMerge]
  · split
    · have h1 : a = [] := List.eq_nil_of_length_eq_zero (by omega)
      subst h1; simp [refMerge]
    · split
      · have h2 : b = [] := List.eq_nil_of_length_eq_zero (by omega)
        subst h2; simp [refMerge]
      · rename_i h0 h1 h2
        simp only
        rw [← refMerge_length a b]
        apply range_flatMap_take (refMerge a b) bs hbs
        · intro blk
          -- every block has exactly `bs` entries
          have hk : ∀ i j, (kernelBlock a b bs i j).length = bs := by
            intro i j
            have hlen : ∀ s i j, (kernelBlock a b s i j).length = s := by
              intro s
              induction s with
              | zero => intro i j; simp [kernelBlock]
              | succ s ih =>
                intro i j
                rw [kernelBlock, kernelStep_eq a b (by omega) (by omega)]
                split
                · rename_i h
                  split at h <;> simp [ih]
                · rename_i h
                  split at h <;> simp at h
            exact hlen bs i j
          exact hk _ _
        · intro blk hblk
          rw [refMerge_length] at hblk ⊢
          obtain ⟨hv, hs⟩ := partition_valid minV maxV (blk * bs) a b (by omega)
          obtain ⟨i, j, e, hv', hd, _⟩ := exists_valid ha hb (blk * bs) (by omega)
          obtain ⟨e1, e2⟩ := valid_unique ha hb hv hv' (by omega)
          rw [e1, e2, hd]
          have := (kernelBlock_eq a b (by omega) (by omega) bs i j hv'.1 hv'.2.1).1
          have hi := hv'.1
          have hj := hv'.2.1
          rw [show a.length + b.length - blk * bs = a.length - i + (b.length - j) by omega]
          exact this
        · rw [refMerge_length]
          have := Nat.div_add_mod (a.length + b.length + bs - 1) bs
          have hm := Nat.mod_lt (a.length + b.length + bs - 1) hbs
          rw [Nat.mul_comm] at this
          omega

/-- **C13.** On sorted inputs of any lengths (0 included), for every block size `bs ≥ 1` and
whatever the sentinel values, the sort-based, loop-based and block-parallel backends return the same
list of (key, source index) pairs, and it is the stable merge of the two inputs. -/
theorem merge_backends_agree (minV maxV : K) (bs : Nat) (hbs : 0 < bs) (a b : List K)
    (ha : Sorted a) (hb : Sorted b) :
    IsStableMerge a b (mergeSortSplitIdx a b) ∧
    mergeLoop a b = mergeSortSplitIdx a b ∧
    mergeParallel minV maxV bs a b = mergeSortSplitIdx a b :=
  ⟨mergeSortSplitIdx_stable a b,
   (mergeLoop_eq_ref a b).trans (mergeSortSplitIdx_eq_ref ha hb).symm,
   (mergeParallel_eq_ref minV maxV bs hbs ha hb).trans (mergeSortSplitIdx_eq_ref ha hb).symm⟩

/-- Non-vacuity: sorted inputs with ties across and inside blocks. -/
example : Sorted [some 1, some 3, some 3, none] ∧ Sorted [some 1, some 2, some 3] := by
  unfold Sorted; decide
example : mergeParallel (some 0) none 2 [some 1, some 3, none] [some 1, some 2]
    = [(some 1, 0), (some 1, 3), (some 2, 4), (some 3, 1), (none, 2)] := by decide +kernel

/-- **C14.** For sorted `a`, `b` and every diagonal `k ≤ n + m` the search (which always terminates,
being a total function) returns `(i, k - i)` where `i` is the number of elements of `a` among the
first `k` elements of the stable merge; `i ≤ n` and `k - i ≤ m`. -/
theorem partition_correct (minV maxV : K) (k : Nat) (a b : List K) (ha : Sorted a) (hb : Sorted b)
    (hk : k ≤ a.length + b.length) (out : List (K × Nat)) (hout : IsStableMerge a b out) :
    let p := binarySearchPartition minV maxV k a b
    p.1 + p.2 = k ∧ p.1 ≤ a.length ∧ p.2 ≤ b.length ∧
    ((out.take k).filter (fun x => decide (x.2 < a.length))).length = p.1 := by
  intro p
  obtain ⟨hv, hs⟩ := partition_valid minV maxV k a b hk
  obtain ⟨i, j, e, hv', _, hc⟩ := exists_valid ha hb k hk
  obtain ⟨e1, e2⟩ := valid_unique ha hb hv hv' (by omega)
  refine ⟨hs, hv.1, hv.2.1, ?_⟩
  rw [isStableMerge_unique hout (mergeSortSplitIdx_stable a b), mergeSortSplitIdx_eq_ref ha hb,
    ← List.countP_eq_length_filter, hc]
  exact e1.symm

/-- Non-vacuity. -/
example : binarySearchPartition (some 0) none 3 [some 1, some 3, none] [some 1, some 2] = (1, 2) := by
  decide +kernel

/-- Both value-gathering modes of the code give the value at the source position. -/
theorem gatherSortedValues_eq (av bv : List V) (idx : List Nat)
    (h : ∀ i ∈ idx, i < av.length + bv.length) :
    gatherSortedValues av bv idx = idx.map (fun i => (av ++ bv)[i]?) ∧
    gatherSortedValuesConcat av bv idx = idx.map (fun i => (av ++ bv)[i]?) := by
  refine ⟨?_, rfl⟩
  unfold gatherSortedValues
  split
  · have : av = [] := List.eq_nil_of_length_eq_zero (by omega)
    subst this; simp
  · split
    · have : bv = [] := List.eq_nil_of_length_eq_zero (by omega)
      subst this; simp
    · apply List.map_congr_left
      intro i hi
      have := h i hi
      split
      · rw [List.getElem?_append_left (by omega)]; congr 1; omega
      · rw [List.getElem?_append_right (by omega)]; congr 1; omega

/-- Keys and values of the (key, index)-based `merge_sort_split` are those of the pair-level merge
used in the BGPQ model, whichever backend produced the stable merge. -/
theorem merge_sort_split_pairs (backend : List K → List K → List (K × Nat))
    (a b : List (K × V))
    (hback : IsStableMerge (a.map Prod.fst) (b.map Prod.fst)
      (backend (a.map Prod.fst) (b.map Prod.fst))) :
    mergeSortSplitWith backend (a.map Prod.fst) (a.map Prod.snd) (b.map Prod.fst) (b.map Prod.snd)
      = (((mergeSplit a b).1.map Prod.fst, (mergeSplit a b).1.map (some ∘ Prod.snd)),
         ((mergeSplit a b).2.map Prod.fst, (mergeSplit a b).2.map (some ∘ Prod.snd))) := by
  have hs := isStableMerge_unique hback (mergeSortSplitIdx_stable _ _)
  unfold mergeSortSplitWith
  rw [hs]
  -- pair-level sort as an image of the index-level sort
  have hpair : (sortKeyVal (a ++ b)).map (fun p => (p.1, some p.2)) =
      (mergeSortSplitIdx (a.map Prod.fst) (b.map Prod.fst)).map
        (fun x => (x.1, ((a ++ b).map Prod.snd)[x.2]?)) := by
    unfold mergeSortSplitIdx
    rw [sortKeyVal_eq, sortKeyVal_eq]
    rw [List.map_mergeSort (s := keyLE) (by intro x _ y _; rfl),
      List.map_mergeSort (s := keyLE) (by intro x _ y _; rfl)]
    congr 1
    apply List.ext_getElem?
    intro i
    simp only [List.getElem?_map, List.getElem?_zipIdx, ← List.map_append]
    cases hp : (a ++ b)[i]? with
    | none => rfl
    | some p => simp [hp]
  have hidx : ∀ i ∈ (mergeSortSplitIdx (a.map Prod.fst) (b.map Prod.fst)).map Prod.snd,
      i < (a.map Prod.snd).length + (b.map Prod.snd).length := by
    intro i hi
    rw [List.mem_map] at hi
    obtain ⟨x, hx, rfl⟩ := hi
    have := (sortKeyVal_perm _).mem_iff.1 hx
    have := List.snd_lt_of_mem_zipIdx this
    simpa using this
  have hg := (gatherSortedValues_eq _ _ _ hidx).1
  have hk : (mergeSortSplitIdx (a.map Prod.fst) (b.map Prod.fst)).map Prod.fst
      = (sortKeyVal (a ++ b)).map Prod.fst := by
    have := congrArg (List.map Prod.fst) hpair
    simpa [List.map_map, Function.comp_def] using this.symm
  have hv : ((mergeSortSplitIdx (a.map Prod.fst) (b.map Prod.fst)).map Prod.snd).map
      (fun i => (a.map Prod.snd ++ b.map Prod.snd)[i]?) = (sortKeyVal (a ++ b)).map (some ∘ Prod.snd) := by
    have := congrArg (List.map Prod.snd) hpair
    simpa [List.map_map, Function.comp_def] using this.symm
  simp only [hg, hk, hv, mergeSplit, List.map_take, List.map_drop, List.length_map]

theorem mergeSplit_perm (a b : List (K × V)) :
    ((mergeSplit a b).1 ++ (mergeSplit a b).2).Perm (a ++ b) := by
  simp only [mergeSplit, List.take_append_drop]; exact sortKeyVal_perm _

theorem mergeSplit_sorted (a b : List (K × V)) :
    ((mergeSplit a b).1 ++ (mergeSplit a b).2).Pairwise (fun x y => KeyCmp.le x.1 y.1 = true) := by
  simp only [mergeSplit, List.take_append_drop]; exact sortKeyVal_sorted _

/-- **C15.** `merge_sort_split` (with any stable backend) applied to two blocks of (key, value)
pairs returns two blocks, the first as long as the first input, such that: the two outputs together
are a permutation of the inputs as pairs; each is sorted; every key of the first is `≤` every key of
the second. -/
theorem merge_sort_split_correct (backend : List K → List K → List (K × Nat))
    (a b : List (K × V))
    (hback : IsStableMerge (a.map Prod.fst) (b.map Prod.fst)
      (backend (a.map Prod.fst) (b.map Prod.fst))) :
    ∃ lo hi : List (K × V),
      mergeSortSplitWith backend (a.map Prod.fst) (a.map Prod.snd) (b.map Prod.fst) (b.map Prod.snd)
        = ((lo.map Prod.fst, lo.map (some ∘ Prod.snd)), (hi.map Prod.fst, hi.map (some ∘ Prod.snd))) ∧
      (lo ++ hi).Perm (a ++ b) ∧ lo.length = a.length ∧ hi.length = b.length ∧
      Sorted (lo.map Prod.fst) ∧ Sorted (hi.map Prod.fst) ∧
      ∀ x ∈ lo, ∀ y ∈ hi, KeyCmp.le x.1 y.1 = true := by
  refine ⟨(mergeSplit a b).1, (mergeSplit a b).2, merge_sort_split_pairs backend a b hback,
    mergeSplit_perm a b, ?_, ?_, ?_⟩
  · simp [mergeSplit, sortKeyVal_eq]
  · simp [mergeSplit, sortKeyVal_eq]
  · have := List.pairwise_append.1 (mergeSplit_sorted a b)
    exact ⟨List.pairwise_map.2 this.1, List.pairwise_map.2 this.2.1, this.2.2⟩

/-- Non-vacuity: each of the three backends of the code meets the hypothesis on sorted blocks. -/
example (minV maxV : K) (bs : Nat) (hbs : 0 < bs) (a b : List K) (ha : Sorted a) (hb : Sorted b) :
    IsStableMerge a b (mergeSortSplitIdx a b) ∧ IsStableMerge a b (mergeLoop a b) ∧
    IsStableMerge a b (mergeParallel minV maxV bs a b) := by
  obtain ⟨h1, h2, h3⟩ := merge_backends_agree minV maxV bs hbs a b ha hb
  exact ⟨h1, h2 ▸ h1, h3 ▸ h1⟩

end MergeModel
