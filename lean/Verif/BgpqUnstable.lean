import Verif.BgpqProps

/-!
# BGPQ with `XTRUCTURE_BGPQ_SORT_STABLE=false`

`sort_arrays` (_utils.py:33-38) sorts the inserted block with `is_stable=SORT_STABLE`; the environment variable of
_constants.py:12-13 can switch stability off.  An unstable sort returns *some* sorted permutation of the block, possibly a
different one on every call.  (The merges are always stable, split.py:11-13.)
-/

namespace Bgpq

open MergeModel BgpqSpec

variable {K : Type u} [KeyInf K] {V : Type v}

/-- What an unstable sort may return: the block in key order. -/
def IsSortOf (block sorted : List (K × V)) : Prop := sorted.Perm block ∧ SortedKeys sorted

/-- `_bgpq_insert_jit` (_insert.py:195-221) after `sort_arrays` has returned `sorted`. -/
def insertSorted (h : Heap K V) (sorted : List (K × V)) : Heap K V :=
  let (root, block) := mergeSplit (rowAt h.rows 0) sorted
  let h := { h with rows := h.rows.set 0 root }
  let (h, block, overflow) := mergeBuffer h block
  let (h, added) := if overflow then insertHeapify h block else (h, false)
  { h with heapSize := h.heapSize + (if added then 1 else 0) }

/-- Histories: every `insert` sorts its block in some way. -/
inductive URun : Heap K V → List (Op K V) → Heap K V → List (Out K V) → Prop
  | nil (h) : URun h [] h []
  | insert {h block sorted ops h' outs} : IsSortOf block sorted → URun (insertSorted h sorted) ops h' outs →
      URun h (.insert block :: ops) h' (⟨none, (insertSorted h sorted).size⟩ :: outs)
  | delete {h h₁ r ops h' outs} : deleteMins h = some (h₁, r) → URun h₁ ops h' outs →
      URun h (.deleteMins :: ops) h' (⟨some r, h₁.size⟩ :: outs)

/-- With the stable sort it is the function of the main model. -/
theorem insertSorted_stable (h : Heap K V) (block : List (K × V)) : insertSorted h (sortKeyVal block) = insert h block := rfl

theorem sortKeyVal_of_sorted {l : List (K × V)} (hs : SortedKeys l) : sortKeyVal l = l := by
  rw [sortKeyVal_eq]
  exact List.mergeSort_of_pairwise hs

/-- An unstable sort amounts to inserting the block in another order. -/
theorem insertSorted_eq (h : Heap K V) {block sorted : List (K × V)} (hs : IsSortOf block sorted) :
    insertSorted h sorted = insert h sorted := by
  rw [← insertSorted_stable, sortKeyVal_of_sorted hs.2]

/-- The specification of an insertion does not depend on the order of the block. -/
theorem step_perm {n cap : Nat} {S S' block block' : List (K × V)} {out : Out K V} (hp : block'.Perm block)
    (h : Step n cap S (.insert block') out S') : Step n cap S (.insert block) out S' := by
  obtain ⟨h1, h2, d, h3, h4, h5⟩ := h
  have hi : (items block').Perm (items block) := hp.filter _
  exact ⟨h1, h2, d, h3.trans (hi.append_left S), fun hl => h4 (by rw [hi.length_eq]; exact hl), h5⟩

theorem urun_refines {h h' : Heap K V} {ops : List (Op K V)} {outs : List (Out K V)} (hr : URun h ops h' outs) (hi : Inv h)
    (hcap : h.maxSize + h.batchSize ≤ 2 ^ 32) (hw : ∀ op ∈ ops, WellFormed h.batchSize op) :
    Inv h' ∧ h'.batchSize = h.batchSize ∧ h'.branchSize = h.branchSize ∧
      Trace h.batchSize h.maxSize (contents h) ops outs (contents h') := by
  induction hr with
  | nil h => exact ⟨hi, rfl, rfl, .nil _⟩
  | @insert h block sorted ops h' outs hs hrun ih =>
    rw [insertSorted_eq h hs] at ih hrun ⊢
    have hbl : sorted.length = h.batchSize := by rw [hs.1.length_eq]; exact hw (.insert block) (by simp)
    obtain ⟨s1, s2, s3, s4⟩ := insert_step hi hcap hbl
    have hm : (Bgpq.insert h sorted).maxSize = h.maxSize := by unfold Heap.maxSize; rw [s3, s4]
    obtain ⟨r2, r3, r4, r5⟩ := ih s2 (by rw [hm, s4]; exact hcap) (fun op hop => by rw [s4]; exact hw op (by simp [hop]))
    rw [s4, hm] at r5
    exact ⟨r2, by omega, by omega, .cons (step_perm hs.1 s1) r5⟩
  | @delete h h₁ r ops h' outs hd hrun ih =>
    obtain ⟨h1, r', d1, s1, s2, s3, s4⟩ := delete_step hi hcap
    rw [d1] at hd
    simp only [Option.some.injEq, Prod.mk.injEq] at hd
    obtain ⟨rfl, rfl⟩ := hd
    have hm : h1.maxSize = h.maxSize := by unfold Heap.maxSize; rw [s3, s4]
    obtain ⟨r2, r3, r4, r5⟩ := ih s2 (by rw [hm, s4]; exact hcap) (fun op hop => by rw [s4]; exact hw op (by simp [hop]))
    rw [s4, hm] at r5
    exact ⟨r2, by omega, by omega, .cons s1 r5⟩

/-- Some history exists for every list of operations. -/
theorem urun_exists (h : Heap K V) (ops : List (Op K V)) (hi : Inv h) (hcap : h.maxSize + h.batchSize ≤ 2 ^ 32)
    (hw : ∀ op ∈ ops, WellFormed h.batchSize op) : ∃ h' outs, URun h ops h' outs := by
  induction ops generalizing h with
  | nil => exact ⟨h, [], .nil h⟩
  | cons op ops ih =>
    cases op with
    | insert block =>
      obtain ⟨s1, s2, s3, s4⟩ := insert_step hi hcap (hw (.insert block) (by simp))
      have hm : (insert h block).maxSize = h.maxSize := by unfold Heap.maxSize; rw [s3, s4]
      obtain ⟨h', outs, hr⟩ := ih _ s2 (by rw [hm, s4]; exact hcap) (fun op hop => by rw [s4]; exact hw op (by simp [hop]))
      exact ⟨h', _, .insert ⟨sortKeyVal_perm block, sortKeyVal_sorted block⟩ hr⟩
    | deleteMins =>
      obtain ⟨h1, r, d1, s1, s2, s3, s4⟩ := delete_step hi hcap
      have hm : h1.maxSize = h.maxSize := by unfold Heap.maxSize; rw [s3, s4]
      obtain ⟨h', outs, hr⟩ := ih _ s2 (by rw [hm, s4]; exact hcap) (fun op hop => by rw [s4]; exact hw op (by simp [hop]))
      exact ⟨h', _, .delete d1 hr⟩

/-- **C06, C07, C08, C10 with unstable sorting.**  Every history of a freshly built queue, however the inserted blocks are
sorted, is a history of the priority-queue specification, and no operation gets stuck. -/
theorem bgpq_refines_unstable (total batch : Nat) (ht : 0 < total) (hb : 0 < batch) (dflt : V)
    (hcap : (build total batch dflt : Heap K V).maxSize + batch ≤ 2 ^ 32)
    (ops : List (Op K V)) (hw : ∀ op ∈ ops, WellFormed batch op) :
    (∃ h outs, URun (build total batch dflt : Heap K V) ops h outs) ∧
    ∀ h outs, URun (build total batch dflt : Heap K V) ops h outs →
      ∃ S, Trace batch (build total batch dflt : Heap K V).maxSize [] ops outs S ∧ h.size = S.length := by
  refine ⟨urun_exists _ ops (inv_build total batch hb ht dflt) hcap hw, fun h outs hr => ?_⟩
  obtain ⟨r2, r3, r4, r5⟩ := urun_refines hr (inv_build total batch hb ht dflt) hcap hw
  refine ⟨contents h, ?_, ?_⟩
  · rw [contents_build] at r5; exact r5
  · exact size_eq r2 (by
      have e : h.maxSize = (build total batch dflt : Heap K V).maxSize := by
        unfold Heap.maxSize; rw [r3, r4]
      rw [e, r3]; exact hcap)

/-- Two histories of the same operations on equal keys that differ only by the sorts: which of two items with the same key
comes out first can differ, so stability is observable. -/
example :
    URun (build 2 1 0 : Heap (Option Nat) Nat) [.insert [(some 5, 1)]] (insertSorted (build 2 1 0) [(some 5, 1)])
      [⟨none, (insertSorted (build 2 1 0 : Heap (Option Nat) Nat) [(some 5, 1)]).size⟩] ∧
    IsSortOf [((some 5 : Option Nat), 1), (some 5, 2)] [(some 5, 2), (some 5, 1)] ∧
    insertSorted (build 4 2 0 : Heap (Option Nat) Nat) [(some 5, 2), (some 5, 1)] ≠ insert (build 4 2 0) [(some 5, 1), (some 5, 2)] := by
  refine ⟨.insert ⟨List.Perm.refl _, by unfold SortedKeys; decide⟩ (.nil _), ⟨List.Perm.swap _ _ _, by unfold SortedKeys; decide⟩, ?_⟩
  intro h
  have := congrArg (fun g => g.rows) h
  revert this
  decide +kernel

end Bgpq
