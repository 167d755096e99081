import Verif.BgpqProps

/-!
# C101: `merge_buffer`, called on its own

`BGPQ.merge_buffer` (bgpq.py:121-140) is public.  The block must be sorted by key, as `insert` passes it: the merge backends presuppose it, and only then
does `Bgpq.mergeBuffer` describe all of them.
-/

namespace Bgpq

open MergeModel BgpqSpec

variable {K : Type u} [KeyInf K] {V : Type v}

/-- Everything about one `merge_buffer`. -/
theorem mergeBuffer_facts {h : Heap K V} (hi : Inv h) {block : List (K × V)} (hbl : block.length = h.batchSize) :
    ((mergeBuffer h block).1.rows = h.rows ∧ (mergeBuffer h block).1.heapSize = h.heapSize ∧ (mergeBuffer h block).1.branchSize = h.branchSize ∧
      (mergeBuffer h block).1.batchSize = h.batchSize) ∧
    (mergeBuffer h block).2.1.length = h.batchSize ∧ (mergeBuffer h block).1.buffer.length = h.batchSize - 1 ∧
    RowSorted (mergeBuffer h block).1.buffer ∧ RowSorted (mergeBuffer h block).2.1 ∧
    (mergeBuffer h block).1.bufferSize = nFinite (mergeBuffer h block).1.buffer ∧
    (∀ p : K × V → Bool, (mergeBuffer h block).1.buffer.countP p + (mergeBuffer h block).2.1.countP p = block.countP p + h.buffer.countP p) ∧
    ((mergeBuffer h block).2.2 = true ↔ h.batchSize ≤ nFinite block + nFinite h.buffer) ∧
    ((mergeBuffer h block).2.2 = true → RowFull (mergeBuffer h block).2.1 ∧ rowLe (mergeBuffer h block).2.1 (mergeBuffer h block).1.buffer) ∧
    ((mergeBuffer h block).2.2 = false → RowInf (mergeBuffer h block).2.1) := by
  have hn := hi.npos
  have hbuf := hi.bufLen
  generalize hsrt : sortKeyVal (block ++ h.buffer) = s
  have hslen : s.length = h.batchSize + (h.batchSize - 1) := by
    rw [← hsrt, (sortKeyVal_perm _).length_eq, List.length_append, hbl, hbuf]
  have hscnt : ∀ p, s.countP p = block.countP p + h.buffer.countP p := by
    intro p; rw [← hsrt, (sortKeyVal_perm _).countP_eq, List.countP_append]
  have hssorted : RowSorted s := by rw [← hsrt]; exact sortKeyVal_sorted _
  have hsplit : ∀ k (p : K × V → Bool), (s.take k).countP p + (s.drop k).countP p = s.countP p := fun k p => by
    rw [← List.countP_append, List.take_append_drop]
  have hle : ∀ k, rowLe (s.take k) (s.drop k) := by
    intro k x hx y hy
    have hsp := hssorted
    unfold RowSorted at hsp
    rw [← List.take_append_drop k s] at hsp
    exact (List.pairwise_append.1 hsp).2.2 x hx y hy
  have hnf : nFinite s = nFinite block + nFinite h.buffer := hscnt fin
  by_cases hov : nFinite s ≥ h.batchSize
  · have hmb : mergeBuffer h block = ({ h with buffer := s.drop h.batchSize, bufferSize := nFinite (s.drop h.batchSize) }, s.take h.batchSize, true) := by
      simp only [mergeBuffer, hsrt, hov, decide_true, if_true]
    rw [hmb]
    refine ⟨⟨rfl, rfl, rfl, rfl⟩, by simp [hslen], by simp [hslen], List.Pairwise.sublist (List.drop_sublist _ _) hssorted,
      List.Pairwise.sublist (List.take_sublist _ _) hssorted, rfl, ?_, by simp only [true_iff]; omega, fun _ => ⟨?_, hle _⟩, fun h => (by cases h)⟩
    · intro p
      have := hsplit h.batchSize p
      have := hscnt p
      show (s.drop h.batchSize).countP p + (s.take h.batchSize).countP p = _
      omega
    · intro x hx
      cases hf : fin x with
      | true => rfl
      | false =>
        exfalso
        have hinf : RowInf (s.drop h.batchSize) := by
          intro y hy
          cases hg : fin y with
          | false => rfl
          | true => rw [fin_of_le (hle _ x hx y hy) hg] at hf; cases hf
        have c1 := rowInf_iff_count.1 hinf
        have c2 : ¬ RowFull (s.take h.batchSize) := fun hr => by rw [hr x hx] at hf; cases hf
        rw [rowFull_iff_count] at c2
        have c3 : nFinite (s.take h.batchSize) ≤ (s.take h.batchSize).length := List.countP_le_length
        have c4 := hsplit h.batchSize fin
        have c5 : (s.take h.batchSize).length = h.batchSize := by simp [hslen]
        unfold nFinite at *
        omega
  · have hsub : s.length - h.batchSize = h.batchSize - 1 := by omega
    have hmb : mergeBuffer h block = ({ h with buffer := s.take (h.batchSize - 1), bufferSize := nFinite (s.take (h.batchSize - 1)) },
        s.drop (h.batchSize - 1), false) := by
      simp only [mergeBuffer, hsrt, hov, decide_false, if_false, Bool.false_eq_true, hsub]
    rw [hmb]
    refine ⟨⟨rfl, rfl, rfl, rfl⟩, by rw [List.length_drop, hslen]; omega, by simp [hslen], List.Pairwise.sublist (List.take_sublist _ _) hssorted,
      List.Pairwise.sublist (List.drop_sublist _ _) hssorted, rfl, ?_, ?_, fun h => (by cases h), fun _ => ?_⟩
    · intro p
      have := hsplit (h.batchSize - 1) p
      have := hscnt p
      show (s.take (h.batchSize - 1)).countP p + (s.drop (h.batchSize - 1)).countP p = _
      omega
    · constructor
      · intro h; cases h
      · intro h; omega
    · intro y hy
      cases hf : fin y with
      | false => rfl
      | true =>
        exfalso
        have hall : RowFull (s.take (h.batchSize - 1)) := fun x hx => fin_of_le (hle _ x hx y hy) hf
        have c1 := rowFull_iff_count.1 hall
        have c2 : 0 < (s.drop (h.batchSize - 1)).countP fin := List.countP_pos_iff.2 ⟨y, hy, hf⟩
        have c3 := hsplit (h.batchSize - 1) fin
        have c4 : (s.take (h.batchSize - 1)).length = h.batchSize - 1 := by simp [hslen]
        unfold nFinite at *
        omega

/-- Queues reachable through `insert`, `delete_mins` and calls of `merge_buffer` whose block has no key below the batch that `delete_mins` would return. -/
inductive MergeReachable (total batch : Nat) (dflt : V) : Heap K V → Prop
  | build : MergeReachable total batch dflt (build total batch dflt)
  | insert {h block} : MergeReachable total batch dflt h → block.length = batch → MergeReachable total batch dflt (insert h block)
  | delete {h h' r} : MergeReachable total batch dflt h → deleteMins h = some (h', r) → MergeReachable total batch dflt h'
  | merge {h block h' r} : MergeReachable total batch dflt h → block.length = batch → SortedKeys block → deleteMins h = some (h', r) →
      (∀ x ∈ r, ∀ y ∈ block, KeyCmp.le x.1 y.1 = true) → MergeReachable total batch dflt (mergeBuffer h block).1

theorem mergeBuffer_inv {h : Heap K V} (hi : Inv h) {block : List (K × V)} (hbl : block.length = h.batchSize) (hge : rowLe (R h.rows 0) block) :
    Inv (mergeBuffer h block).1 := by
  obtain ⟨⟨m1, m2, m3, m4⟩, m5, m6, m7, _, m9, m10, _⟩ := mergeBuffer_facts hi hbl
  refine ⟨by rw [m4]; exact hi.npos, by rw [m1, m2, m3, m4]; exact hi.store, by rw [m6, m4], m7, ?_, m9⟩
  rw [m1]
  intro x hx y hy
  classical
  have hp := m10 (fun z => decide (z.1 = y.1))
  have : 0 < block.countP (fun z => decide (z.1 = y.1)) + h.buffer.countP (fun z => decide (z.1 = y.1)) := by
    rw [← hp]
    have : 0 < (mergeBuffer h block).1.buffer.countP (fun z => decide (z.1 = y.1)) := List.countP_pos_iff.2 ⟨y, hy, by simp⟩
    omega
  by_cases hc : 0 < block.countP (fun z => decide (z.1 = y.1))
  · obtain ⟨z, hz, he⟩ := List.countP_pos_iff.1 hc
    rw [← of_decide_eq_true he]
    exact hge x hx z hz
  · obtain ⟨z, hz, he⟩ := List.countP_pos_iff.1 (show 0 < h.buffer.countP (fun z => decide (z.1 = y.1)) by omega)
    rw [← of_decide_eq_true he]
    exact hi.bufGe x hx z hz

theorem delete_is_root {h h' : Heap K V} {r : List (K × V)} (hi : 0 < h.rows.length) (hd : deleteMins h = some (h', r)) : r = R h.rows 0 := by
  unfold deleteMins at hd
  simp only [rowAt_of_lt hi] at hd
  by_cases h0 : h.heapSize = 0
  · rw [if_pos h0] at hd
    cases hd
    rfl
  · rw [if_neg h0] at hd
    cases hh : deleteHeapify h with
    | none => rw [hh] at hd; cases hd
    | some g => rw [hh] at hd; cases hd; rfl

theorem mergeReachable_inv {total batch : Nat} (ht : 0 < total) (hb : 0 < batch) {dflt : V}
    (hcap : (build total batch dflt : Heap K V).maxSize + batch ≤ 2 ^ 32) {h : Heap K V} (hr : MergeReachable total batch dflt h) :
    Inv h ∧ h.batchSize = batch ∧ h.maxSize = (build total batch dflt : Heap K V).maxSize := by
  induction hr with
  | build => exact ⟨inv_build total batch hb ht dflt, rfl, rfl⟩
  | @insert h block _ hbl ih =>
    obtain ⟨i1, i2, i3⟩ := ih
    obtain ⟨_, s2, s3, s4⟩ := insert_step i1 (by rw [i2, i3]; exact hcap) (by rw [i2]; exact hbl)
    exact ⟨s2, by omega, by unfold Heap.maxSize at *; rw [s3, s4]; exact i3⟩
  | @delete h h' r _ hd ih =>
    obtain ⟨i1, i2, i3⟩ := ih
    obtain ⟨h1, r', d1, s1, s2, s3, s4⟩ := delete_step i1 (by rw [i2, i3]; exact hcap)
    rw [d1] at hd
    simp only [Option.some.injEq, Prod.mk.injEq] at hd
    obtain ⟨rfl, rfl⟩ := hd
    exact ⟨s2, by omega, by unfold Heap.maxSize at *; rw [s3, s4]; exact i3⟩
  | @merge h block h' r _ hbl _ hd hge ih =>
    obtain ⟨i1, i2, i3⟩ := ih
    have hlen := i1.store.len
    have hlt := i1.store.hs_lt
    have := delete_is_root (by omega) hd
    subst this
    obtain ⟨⟨_, _, m3, m4⟩, _⟩ := mergeBuffer_facts i1 (by rw [i2]; exact hbl)
    exact ⟨mergeBuffer_inv i1 (by rw [i2]; exact hbl) hge, by omega, by unfold Heap.maxSize at *; rw [m3, m4]; exact i3⟩

theorem Reachable.toMerge {total batch : Nat} {dflt : V} {h : Heap K V} (hr : Reachable total batch dflt h) : MergeReachable total batch dflt h := by
  induction hr with
  | build => exact .build
  | insert _ hbl ih => exact .insert ih hbl
  | delete _ hd ih => exact .delete ih hd

/-- **C101.**  `merge_buffer(block)` for a sorted block of `batch_size` pairs, on any queue: no pair is lost or made up — what the queue held and the
block are what the queue now holds and the block returned; the flag says whether block and buffer had at least `batch_size` finite keys; if so the
returned block is full, sorted, and no key that stays in the buffer is smaller; if not, it holds no item. -/
theorem merge_buffer_conserves {total batch : Nat} (ht : 0 < total) (hb : 0 < batch) {dflt : V}
    (hcap : (build total batch dflt : Heap K V).maxSize + batch ≤ 2 ^ 32) {h : Heap K V} (hr : MergeReachable total batch dflt h)
    {block : List (K × V)} (hbl : block.length = batch) (_hs : SortedKeys block) :
    let m := mergeBuffer h block
    (contents m.1 ++ items m.2.1).Perm (contents h ++ items block) ∧ m.2.1.length = batch ∧ SortedKeys m.2.1 ∧
    (m.2.2 = true ↔ batch ≤ (items block).length + (items h.buffer).length) ∧
    (m.2.2 = true → items m.2.1 = m.2.1 ∧ ∀ x ∈ m.2.1, ∀ y ∈ items m.1.buffer, KeyCmp.le x.1 y.1 = true) ∧
    (m.2.2 = false → items m.2.1 = []) ∧ m.1.rows = h.rows := by
  obtain ⟨i1, i2, _⟩ := mergeReachable_inv ht hb hcap hr
  obtain ⟨⟨m1, m2, m3, m4⟩, m5, m6, m7, m8, m9, m10, m11, m12, m13⟩ := mergeBuffer_facts i1 (by rw [i2]; exact hbl)
  have hl : ∀ l : List (K × V), (items l).length = nFinite l := fun l => by
    rw [items_eq, ← List.countP_eq_length_filter]; rfl
  refine ⟨?_, by rw [m5, i2], m8, by rw [hl, hl, m11, i2], fun ho => ⟨?_, ?_⟩, fun ho => ?_, m1⟩
  · apply perm_of_countP
    intro p
    rw [List.countP_append, List.countP_append, countP_contents, countP_contents, countP_items, countP_items]
    unfold allPairs
    rw [List.countP_append, List.countP_append, m1]
    have := m10 (fun x => p x && fin x)
    omega
  · rw [items_eq, List.filter_eq_self]
    exact (m12 ho).1
  · intro x hx y hy
    exact (m12 ho).2 x hx y ((List.mem_filter.1 hy).1)
  · rw [items_eq, List.filter_eq_nil_iff]
    intro x hx
    rw [m13 ho x hx]
    decide

/-- **C101.**  If no key of the block is below the batch that `delete_mins` would return, the queue stays a priority queue: `delete_mins` returns the
`batch_size` smallest of all items, `size` counts them — after any further operations of that kind. -/
theorem merge_buffer_then_delete {total batch : Nat} (ht : 0 < total) (hb : 0 < batch) {dflt : V}
    (hcap : (build total batch dflt : Heap K V).maxSize + batch ≤ 2 ^ 32) {h : Heap K V} (hr : MergeReachable total batch dflt h) :
    h.size = (contents h).length ∧
    ∃ h' r, deleteMins h = some (h', r) ∧ r.length = batch ∧ SortedKeys r ∧ (items r ++ contents h').Perm (contents h) ∧
      (∀ x ∈ r, ∀ y ∈ contents h', KeyCmp.le x.1 y.1 = true) ∧ ((items r).length < batch → contents h' = []) := by
  obtain ⟨i1, i2, i3⟩ := mergeReachable_inv ht hb hcap hr
  obtain ⟨h', r, d1, ⟨_, r', e, s1, s2, s3, s4, s5⟩, _⟩ := delete_step i1 (by rw [i2, i3]; exact hcap)
  simp only [Option.some.injEq] at e
  subst e
  rw [i2] at s1 s5
  exact ⟨size_eq i1 (by rw [i2, i3]; exact hcap), h', r, d1, s1, s2, s3, s4, s5⟩

/-- **C101 is false without that condition.**  `merge_buffer` never touches the batch that `delete_mins` returns next.  If the call keeps the whole block
(no overflow) and the block has a key below that batch, `delete_mins` returns a batch with a larger key while it leaves a smaller one behind: for some
`k`, the queue has more items up to `k` than the batch, and the batch has an item above `k`. -/
theorem merge_buffer_min_false {total batch : Nat} (ht : 0 < total) (hb : 0 < batch) {dflt : V}
    (hcap : (build total batch dflt : Heap K V).maxSize + batch ≤ 2 ^ 32) {h h' : Heap K V} {r : List (K × V)} (hr : MergeReachable total batch dflt h)
    (hd : deleteMins h = some (h', r)) {block : List (K × V)} (hbl : block.length = batch) (hs : SortedKeys block) :
    (∀ h'' r'', deleteMins (mergeBuffer h block).1 = some (h'', r'') → r'' = r) ∧
    ((mergeBuffer h block).2.2 = false → (∃ x ∈ r, ∃ y ∈ block, KeyCmp.le x.1 y.1 = false) →
      ∃ k : K, r.countP (fun x => KeyCmp.le x.1 k) < (contents (mergeBuffer h block).1).countP (fun x => KeyCmp.le x.1 k) ∧
        ∃ x ∈ r, KeyCmp.le x.1 k = false) := by
  obtain ⟨i1, i2, i3⟩ := mergeReachable_inv ht hb hcap hr
  have hlen := i1.store.len
  have hlt := i1.store.hs_lt
  have hroot := delete_is_root (by omega) hd
  obtain ⟨hperm, _, _, _, _, hno, hrows⟩ := merge_buffer_conserves ht hb hcap hr hbl hs
  constructor
  · intro h'' r'' hd''
    rw [delete_is_root (by rw [hrows]; omega) hd'', hrows, hroot]
  · rintro hov ⟨x, hx, y, hy, hxy⟩
    refine ⟨y.1, ?_, x, hx, hxy⟩
    have hyf : fin y = true := by
      cases hf : fin y with
      | true => rfl
      | false => rw [le_of_not_fin hf] at hxy; cases hxy
    obtain ⟨g', g1, _, _, _, g5, _⟩ := delete_spec i1
    have c1 : r.countP (fun x => KeyCmp.le x.1 y.1) ≤ (contents h).countP (fun x => KeyCmp.le x.1 y.1) := by
      rw [countP_contents, hroot]
      have := g5 (fun x => KeyCmp.le x.1 y.1)
      have e : (R h.rows 0).countP (fun x => KeyCmp.le x.1 y.1) = (R h.rows 0).countP (fun x => KeyCmp.le x.1 y.1 && fin x) := by
        refine List.countP_congr fun z _ => ?_
        constructor
        · intro hz
          rw [hz, fin_of_le hz hyf]; rfl
        · intro hz
          exact (Bool.and_eq_true _ _ ▸ hz).1
      omega
    have c2 : 0 < (items block).countP (fun x => KeyCmp.le x.1 y.1) :=
      List.countP_pos_iff.2 ⟨y, List.mem_filter.2 ⟨hy, hyf⟩, (by have := KeyLE.total y.1 y.1; simpa using this)⟩
    have c3 := hperm.countP_eq (fun x => KeyCmp.le x.1 y.1)
    rw [hno hov, List.append_nil, List.countP_append] at c3
    omega

/-- A queue with items 3, 5 in front and 7 in the buffer: merging a block with key 9 keeps the order, merging key 1 does not. -/
example :
    let b : Heap (Option Nat) Nat := build 6 3 0
    let h := insert (insert b [(some 3, 3), (some 4, 4), (some 5, 5)]) [(some 7, 7), (none, 0), (none, 0)]
    (mergeBuffer h [(some 9, 9), (none, 0), (none, 0)]).2.2 = false ∧
    (deleteMins (mergeBuffer h [(some 9, 9), (none, 0), (none, 0)]).1).map (fun x => (x.2.map Prod.fst, contents x.1)) =
      some ([some 3, some 4, some 5], [(some 7, 7), (some 9, 9)]) ∧
    (deleteMins (mergeBuffer h [(some 1, 1), (none, 0), (none, 0)]).1).map (fun x => (x.2.map Prod.fst, contents x.1)) =
      some ([some 3, some 4, some 5], [(some 1, 1), (some 7, 7)]) ∧
    (mergeBuffer h [(some 1, 1), (some 8, 8), (none, 0)]).2 = ([(some 1, 1), (some 7, 7), (some 8, 8)], true) := by
  decide +kernel

/-- On an empty queue: `size` is 1, but `delete_mins` returns padding only. -/
example :
    let q := (mergeBuffer (build 6 2 0 : Heap (Option Nat) Nat) [(some 1, 1), (none, 0)]).1
    q.size = 1 ∧ (deleteMins q).map (fun x => x.2.map Prod.fst) = some [none, none] := by
  decide +kernel

end Bgpq
