import Verif.BgpqProps

/-!
# The queue with another merge backend (C82)

The functions of `BgpqModel` with the two merges of the code as parameters: `mgs` is the merge inside `merge_sort_split` (_merge.py:57-106), `mgb` the one of
`_bgpq_merge_buffer_jit` (_insert.py:24-43).  Both return the merged list of (key, value) pairs.  `With` of the sort is the function of `BgpqModel` (by `rfl`).
-/

namespace Bgpq

open MergeModel BgpqSpec

section Model

variable {K : Type u} [KeyPad K] {V : Type v} (mgs mgb : List (K × V) → List (K × V) → List (K × V))

/-- `merge_sort_split` (_merge.py:57-106). -/
def splitWith (a b : List (K × V)) : List (K × V) × List (K × V) :=
  let s := mgs a b
  (s.take a.length, s.drop a.length)

/-- `_bgpq_merge_buffer_jit` (_insert.py:24-72). -/
def mergeBufferWith (h : Heap K V) (block : List (K × V)) : Heap K V × List (K × V) × Bool :=
  let n := h.batchSize
  let s := mgb block h.buffer
  let overflow := decide (nFinite s ≥ n)
  let (blk, buf) :=
    if overflow then (s.take n, s.drop n)
    else (s.drop (s.length - n), s.take (s.length - n))
  ({ h with buffer := buf, bufferSize := nFinite buf }, blk, overflow)

/-- The scan of `_update_path` (_insert.py:134-150). -/
def scanPathWith : List (List (K × V) × Bool) → List (K × V) → List (List (K × V)) × List (K × V)
  | [], carry => ([], carry)
  | (node, doMerge) :: rest, carry =>
    if doMerge then
      let (head, next) := splitWith mgs node carry
      let (heads, fin) := scanPathWith rest next
      (head :: heads, fin)
    else
      let (heads, fin) := scanPathWith rest carry
      (node :: heads, fin)

/-- `_update_path` (_insert.py:127-154). -/
def insertUpdatesWith (h : Heap K V) (target : Nat) (block : List (K × V)) : List (Nat × List (K × V)) :=
  let path := pathIndices (maxDepth h.branchSize) target
  let masked := path.zipIdx.map fun (p, lvl) => (p.1, p.2 && decide (lvl > 0))
  let nodes := masked.map fun (i, m) => (rowAt h.rows (if m then i else 0), m)
  let heads := (scanPathWith mgs nodes block).1
  let idx := masked.zipIdx.map fun (p, lvl) =>
    if p.2 || decide (lvl = 0) then p.1 else h.branchSize
  idx.zip heads

/-- `_bgpq_insert_heapify_internal` (_insert.py:93-191). -/
def insertHeapifyWith (h : Heap K V) (block : List (K × V)) : Heap K V × Bool :=
  let isFull := decide (h.heapSize ≥ h.branchSize - 1)
  let last := if isFull then argmaxLast h.rows else h.heapSize + 1
  let valid := decide (last < h.branchSize)
  let h' :=
    if valid then
      if last = 0 then
        { h with rows := h.rows.set 0 (splitWith mgs (rowAt h.rows 0) block).1 }
      else { h with rows := scatterRows h.rows (insertUpdatesWith mgs h last block) }
    else h
  (h', valid && !isFull)

/-- `_bgpq_insert_jit` (_insert.py:195-221). -/
def insertWith (h : Heap K V) (block : List (K × V)) : Heap K V :=
  let block := sortKeyVal block
  let (root, block) := splitWith mgs (rowAt h.rows 0) block
  let h := { h with rows := h.rows.set 0 root }
  let (h, block, overflow) := mergeBufferWith mgb h block
  let (h, added) := if overflow then insertHeapifyWith mgs h block else (h, false)
  { h with heapSize := h.heapSize + (if added then 1 else 0) }

/-- The loop of `_bgpq_delete_heapify_internal` (_delete.py:71-154). -/
def siftLoopWith (rows : List (List (K × V))) : Nat → Nat → List (K × V) →
    List (Nat × List (K × V)) → Option (Nat × List (K × V) × List (Nat × List (K × V)))
  | 0, _, _, _ => none
  | fuel + 1, cur, keys, upd =>
    let left := cur * 2 + 1
    let right := cur * 2 + 2
    let l := rowAt rows left
    let r := rowAt rows right
    let minLR := if KeyCmp.le (firstKey l) (firstKey r) then firstKey l else firstKey r
    if KeyCmp.le (lastKey keys) minLR then some (cur, keys, upd)
    else
      let (x, y) := if KeyCmp.le (lastKey l) (lastKey r) then (right, left) else (left, right)
      let (ky, kx) := splitWith mgs l r
      let (kc, ky) := splitWith mgs keys ky
      siftLoopWith rows fuel y ky (upd ++ [(cur, kc), (x, kx)])

/-- The updates of `_bgpq_delete_heapify_internal` (_delete.py:142-178). -/
def deleteUpdatesWith (branch : Nat) (rows : List (List (K × V))) (root : List (K × V)) :
    Option (List (Nat × List (K × V))) :=
  (siftLoopWith mgs rows (maxDepth branch) 0 root []).map fun (cur, keys, upd) =>
    (upd ++ [(cur, keys)]).take (maxDepth branch * 2 + 1)

/-- `_bgpq_delete_heapify_internal` (_delete.py:17-197). -/
def deleteHeapifyWith (h : Heap K V) : Option (Heap K V) :=
  let last := h.heapSize
  let lastRow := rowAt h.rows last
  let (root, buf) := splitWith mgs lastRow h.buffer
  let rows := (h.rows.set last (lastRow.map fun p => (KeyPad.inf, p.2))).set 0 root
  (deleteUpdatesWith mgs h.branchSize rows root).map fun upd =>
    { h with heapSize := last - 1, buffer := buf, rows := scatterRows rows upd }

/-- `_bgpq_delete_mins_jit` (_delete.py:201-225). -/
def deleteMinsWith (h : Heap K V) : Option (Heap K V × List (K × V)) :=
  let mins := rowAt h.rows 0
  if h.heapSize = 0 then
    let (root, buf) := splitWith mgs (mins.map fun p => (KeyPad.inf, p.2)) h.buffer
    some ({ h with rows := h.rows.set 0 root, buffer := buf, bufferSize := 0 }, mins)
  else (deleteHeapifyWith mgs h).map fun h' => (h', mins)

end Model

section BySort

variable {K : Type u} [KeyPad K] {V : Type v}

/-- Merging by sorting. -/
def sortMerge (a b : List (K × V)) : List (K × V) := sortKeyVal (a ++ b)

theorem splitWith_sort (a b : List (K × V)) : splitWith sortMerge a b = mergeSplit a b := rfl

theorem scanPathWith_sort (l : List (List (K × V) × Bool)) (c : List (K × V)) : scanPathWith sortMerge l c = scanPath l c := by
  induction l generalizing c with
  | nil => rfl
  | cons x l ih =>
    obtain ⟨node, d⟩ := x
    cases d
    · simp only [scanPathWith, scanPath, ih]; rfl
    · simp only [scanPathWith, scanPath, ih, splitWith_sort]

theorem insertWith_sort (h : Heap K V) (block : List (K × V)) : insertWith sortMerge sortMerge h block = insert h block := by
  have : ∀ (h : Heap K V) t b, insertUpdatesWith sortMerge h t b = insertUpdates h t b := by
    intro h t b
    unfold insertUpdatesWith insertUpdates
    simp only [scanPathWith_sort]
  unfold insertWith insert insertHeapifyWith insertHeapify
  simp only [this]
  rfl

theorem siftLoopWith_sort (rows : List (List (K × V))) (f cur : Nat) (keys : List (K × V)) (upd : List (Nat × List (K × V))) :
    siftLoopWith sortMerge rows f cur keys upd = siftLoop rows f cur keys upd := by
  induction f generalizing cur keys upd with
  | zero => rfl
  | succ f ih => simp only [siftLoopWith, siftLoop, ih, splitWith_sort]

theorem deleteMinsWith_sort (h : Heap K V) : deleteMinsWith sortMerge h = deleteMins h := by
  unfold deleteMinsWith deleteMins deleteHeapifyWith deleteHeapify deleteUpdatesWith deleteUpdates
  simp only [siftLoopWith_sort]
  rfl

end BySort


/-! ## Every merge of the queue gets sorted inputs -/

section Agree

variable {K : Type u} [KeyTop K] {V : Type v}

/-- A block of `n` pairs in key order whose values satisfy `P`. -/
structure Good (n : Nat) (P : V → Prop) (l : List (K × V)) : Prop where
  len : l.length = n
  sorted : SortedKeys l
  vals : ∀ x ∈ l, P x.2

/-- `mg` merges blocks of `n` and `m` pairs in key order as sorting does. -/
def MergesLikeSort (mg : List (K × V) → List (K × V) → List (K × V)) (n m : Nat) (P : V → Prop) : Prop :=
  ∀ a b, Good n P a → Good m P b → mg a b = sortKeyVal (a ++ b)

structure HGood (P : V → Prop) (h : Heap K V) : Prop where
  npos : 0 < h.batchSize
  rows : ∀ r ∈ h.rows, Good h.batchSize P r
  ne : 0 < h.rows.length
  buf : Good (h.batchSize - 1) P h.buffer

theorem good_split {n m : Nat} {P : V → Prop} {a b : List (K × V)} (ha : Good n P a) (hb : Good m P b) :
    Good n P (mergeSplit a b).1 ∧ Good m P (mergeSplit a b).2 := by
  have hs := List.pairwise_append.1 (mergeSplit_sorted a b)
  have hp := mergeSplit_perm a b
  have hv : ∀ x ∈ (mergeSplit a b).1 ++ (mergeSplit a b).2, P x.2 := by
    intro x hx
    rcases List.mem_append.1 (hp.mem_iff.1 hx) with h | h
    · exact ha.vals x h
    · exact hb.vals x h
  refine ⟨⟨?_, hs.1, fun x hx => hv x (by simp [hx])⟩, ⟨?_, hs.2.1, fun x hx => hv x (by simp [hx])⟩⟩
  · rw [← ha.len]; simp [mergeSplit, sortKeyVal_eq]
  · rw [← hb.len]; simp [mergeSplit, sortKeyVal_eq]

theorem split_agree {mg : List (K × V) → List (K × V) → List (K × V)} {n m : Nat} {P : V → Prop} (h : MergesLikeSort mg n m P)
    {a b : List (K × V)} (ha : Good n P a) (hb : Good m P b) : splitWith mg a b = mergeSplit a b := by
  unfold splitWith mergeSplit
  rw [h a b ha hb]

theorem good_rowAt {n : Nat} {P : V → Prop} {rows : List (List (K × V))} (h : ∀ r ∈ rows, Good n P r) (hne : 0 < rows.length) (i : Nat) :
    Good n P (rowAt rows i) := by
  unfold rowAt Jax.gatherU
  have : Jax.clampIdx rows.length i < rows.length := by unfold Jax.clampIdx; omega
  rw [List.getElem?_eq_getElem this]
  exact h _ (List.getElem_mem this)

theorem good_pad {n : Nat} {P : V → Prop} {r : List (K × V)} (h : Good n P r) : Good n P (r.map fun p => ((KeyPad.inf : K), p.2)) := by
  refine ⟨by rw [List.length_map]; exact h.len, ?_, ?_⟩
  · refine List.pairwise_map.2 (List.Pairwise.imp (fun _ => KeyLE.refl _) h.sorted)
  · intro x hx
    obtain ⟨y, hy, rfl⟩ := List.mem_map.1 hx
    exact h.vals y hy

theorem good_set {n : Nat} {P : V → Prop} {rows : List (List (K × V))} (h : ∀ r ∈ rows, Good n P r) {r : List (K × V)} (hr : Good n P r) (i : Nat) :
    ∀ q ∈ rows.set i r, Good n P q := by
  intro q hq
  rcases List.mem_or_eq_of_mem_set hq with h1 | h1
  · exact h q h1
  · exact h1 ▸ hr

theorem good_scatter {n : Nat} {P : V → Prop} (upd : List (Nat × List (K × V))) (hu : ∀ u ∈ upd, Good n P u.2) {rows : List (List (K × V))}
    (h : ∀ r ∈ rows, Good n P r) : (∀ r ∈ scatterRows rows upd, Good n P r) ∧ (scatterRows rows upd).length = rows.length := by
  induction upd generalizing rows with
  | nil => exact ⟨h, rfl⟩
  | cons u us ih =>
    have hu' := hu u (by simp)
    show (∀ r ∈ scatterRows (if u.1 < rows.length then rows.set u.1 u.2 else rows) us, Good n P r) ∧
      (scatterRows (if u.1 < rows.length then rows.set u.1 u.2 else rows) us).length = _
    by_cases hl : u.1 < rows.length
    · rw [if_pos hl]
      have := ih (fun x hx => hu x (by simp [hx])) (good_set h hu' u.1)
      rw [List.length_set] at this
      exact this
    · rw [if_neg hl]
      exact ih (fun x hx => hu x (by simp [hx])) h

theorem scan_agree {mgs : List (K × V) → List (K × V) → List (K × V)} {n : Nat} {P : V → Prop} (h : MergesLikeSort mgs n n P)
    (l : List (List (K × V) × Bool)) (hl : ∀ x ∈ l, Good n P x.1) (c : List (K × V)) (hc : Good n P c) :
    scanPathWith mgs l c = scanPath l c ∧ ∀ r ∈ (scanPath l c).1, Good n P r := by
  induction l generalizing c with
  | nil => exact ⟨rfl, by simp [scanPath]⟩
  | cons x l ih =>
    obtain ⟨node, d⟩ := x
    have hn : Good n P node := hl (node, d) (by simp)
    have hl' : ∀ x ∈ l, Good n P x.1 := fun x hx => hl x (by simp [hx])
    cases d
    · obtain ⟨e, g⟩ := ih hl' c hc
      refine ⟨by simp only [scanPathWith, scanPath, e]; rfl, ?_⟩
      intro r hr
      rcases List.mem_cons.1 (show r ∈ node :: (scanPath l c).1 from hr) with h1 | h1
      · exact h1 ▸ hn
      · exact g r h1
    · have hs := good_split hn hc
      obtain ⟨e, g⟩ := ih hl' _ hs.2
      refine ⟨by simp only [scanPathWith, scanPath, split_agree h hn hc, e]; rfl, ?_⟩
      intro r hr
      rcases List.mem_cons.1 (show r ∈ (mergeSplit node c).1 :: (scanPath l (mergeSplit node c).2).1 from hr) with h1 | h1
      · exact h1 ▸ hs.1
      · exact g r h1

theorem insertUpdates_agree {mgs : List (K × V) → List (K × V) → List (K × V)} {P : V → Prop} {h : Heap K V}
    (hm : MergesLikeSort mgs h.batchSize h.batchSize P) (hr : ∀ r ∈ h.rows, Good h.batchSize P r) (hne : 0 < h.rows.length) (t : Nat)
    {block : List (K × V)} (hb : Good h.batchSize P block) :
    insertUpdatesWith mgs h t block = insertUpdates h t block ∧ ∀ u ∈ insertUpdates h t block, Good h.batchSize P u.2 := by
  unfold insertUpdatesWith insertUpdates
  simp only
  generalize ((pathIndices (maxDepth h.branchSize) t).zipIdx.map fun x => (x.1.1, x.1.2 && decide (x.2 > 0))) = masked
  have hn : ∀ x ∈ masked.map fun x => (rowAt h.rows (if x.2 then x.1 else 0), x.2), Good h.batchSize P x.1 := by
    intro x hx
    obtain ⟨y, _, rfl⟩ := List.mem_map.1 hx
    exact good_rowAt hr hne _
  obtain ⟨e, g⟩ := scan_agree hm _ hn block hb
  refine ⟨by rw [e], ?_⟩
  intro u hu
  exact g _ (List.of_mem_zip hu).2

theorem insertHeapify_agree {mgs : List (K × V) → List (K × V) → List (K × V)} {P : V → Prop} {h : Heap K V}
    (hm : MergesLikeSort mgs h.batchSize h.batchSize P) (hg : HGood P h) {block : List (K × V)} (hb : Good h.batchSize P block) :
    insertHeapifyWith mgs h block = insertHeapify h block ∧ HGood P (insertHeapify h block).1 := by
  unfold insertHeapifyWith insertHeapify
  simp only
  generalize (if decide (h.heapSize ≥ h.branchSize - 1) = true then argmaxLast h.rows else h.heapSize + 1) = last
  obtain ⟨e, g⟩ := insertUpdates_agree hm hg.rows hg.ne last hb
  have h0 := good_rowAt hg.rows hg.ne 0
  rw [split_agree hm h0 hb, e]
  refine ⟨rfl, ?_⟩
  by_cases hv : decide (last < h.branchSize) = true
  · rw [if_pos hv]
    by_cases hl : last = 0
    · rw [if_pos hl]
      exact ⟨hg.npos, good_set hg.rows (good_split h0 hb).1 0, by simpa using hg.ne, hg.buf⟩
    · rw [if_neg hl]
      have := good_scatter _ g hg.rows
      exact ⟨hg.npos, this.1, by simp only; rw [this.2]; exact hg.ne, hg.buf⟩
  · rw [if_neg hv]; exact hg

theorem good_take {n : Nat} {P : V → Prop} {l : List (K × V)} (hs : SortedKeys l) (hv : ∀ x ∈ l, P x.2) (hn : n ≤ l.length) : Good n P (l.take n) :=
  ⟨by simp; omega, hs.sublist (List.take_sublist _ _), fun x hx => hv x (List.mem_of_mem_take hx)⟩

theorem good_drop {n : Nat} {P : V → Prop} {l : List (K × V)} (hs : SortedKeys l) (hv : ∀ x ∈ l, P x.2) (k : Nat) (hn : l.length = k + n) :
    Good n P (l.drop k) :=
  ⟨by simp; omega, hs.sublist (List.drop_sublist _ _), fun x hx => hv x (List.mem_of_mem_drop hx)⟩

theorem mergeBuffer_agree {mgb : List (K × V) → List (K × V) → List (K × V)} {P : V → Prop} {h : Heap K V}
    (hm : MergesLikeSort mgb h.batchSize (h.batchSize - 1) P) (hg : HGood P h) {block : List (K × V)} (hb : Good h.batchSize P block) :
    mergeBufferWith mgb h block = mergeBuffer h block ∧ HGood P (mergeBuffer h block).1 ∧ Good h.batchSize P (mergeBuffer h block).2.1 ∧
      (mergeBuffer h block).1.batchSize = h.batchSize := by
  unfold mergeBufferWith mergeBuffer
  simp only
  rw [hm block h.buffer hb hg.buf]
  refine ⟨rfl, ?_⟩
  have hp := sortKeyVal_perm (block ++ h.buffer)
  have hs := sortKeyVal_sorted (block ++ h.buffer)
  have hv : ∀ x ∈ sortKeyVal (block ++ h.buffer), P x.2 := by
    intro x hx
    rcases List.mem_append.1 (hp.mem_iff.1 hx) with h1 | h1
    · exact hb.vals x h1
    · exact hg.buf.vals x h1
  have hl : (sortKeyVal (block ++ h.buffer)).length = h.batchSize + (h.batchSize - 1) := by
    rw [hp.length_eq, List.length_append, hb.len, hg.buf.len]
  generalize sortKeyVal (block ++ h.buffer) = s at hs hv hl
  by_cases ho : decide (nFinite s ≥ h.batchSize) = true
  · rw [if_pos ho]
    exact ⟨⟨hg.npos, hg.rows, hg.ne, good_drop hs hv _ hl⟩, good_take hs hv (by omega), trivial⟩
  · rw [if_neg ho]
    exact ⟨⟨hg.npos, hg.rows, hg.ne, by
      have := good_take (n := h.batchSize - 1) hs hv (by omega)
      rw [show s.length - h.batchSize = h.batchSize - 1 by omega]; exact this⟩, good_drop hs hv _ (by omega), trivial⟩

/-- `insert` with backends that merge sorted blocks like sorting does. -/
theorem insert_agree {mgs mgb : List (K × V) → List (K × V) → List (K × V)} {P : V → Prop} {h : Heap K V}
    (hms : MergesLikeSort mgs h.batchSize h.batchSize P) (hmb : MergesLikeSort mgb h.batchSize (h.batchSize - 1) P) (hg : HGood P h)
    {block : List (K × V)} (hl : block.length = h.batchSize) (hv : ∀ x ∈ block, P x.2) :
    insertWith mgs mgb h block = insert h block ∧ HGood P (insert h block) ∧ (insert h block).batchSize = h.batchSize := by
  have hp := sortKeyVal_perm block
  have hb : Good h.batchSize P (sortKeyVal block) :=
    ⟨by rw [hp.length_eq]; exact hl, sortKeyVal_sorted _, fun x hx => hv x (hp.mem_iff.1 hx)⟩
  unfold insertWith insert
  simp only
  have h0 := good_rowAt hg.rows hg.ne 0
  rw [split_agree hms h0 hb]
  have hs := good_split h0 hb
  have hg1 : HGood P { h with rows := h.rows.set 0 (mergeSplit (rowAt h.rows 0) (sortKeyVal block)).1 } :=
    ⟨hg.npos, good_set hg.rows hs.1 0, by simpa using hg.ne, hg.buf⟩
  obtain ⟨e, g1, g2, g3⟩ := mergeBuffer_agree (mgb := mgb) (h := { h with rows := h.rows.set 0 (mergeSplit (rowAt h.rows 0) (sortKeyVal block)).1 })
    hmb hg1 hs.2
  rw [e]
  generalize mergeBuffer { h with rows := h.rows.set 0 (mergeSplit (rowAt h.rows 0) (sortKeyVal block)).1 } (mergeSplit (rowAt h.rows 0) (sortKeyVal block)).2 = q
    at g1 g2 g3
  obtain ⟨h', blk, ov⟩ := q
  simp only at g1 g2 g3 ⊢
  obtain ⟨e2, g4⟩ := insertHeapify_agree (mgs := mgs) (by rw [g3]; exact hms) g1 (block := blk) (by rw [g3]; exact g2)
  rw [e2]
  refine ⟨rfl, ?_⟩
  have hbs : (insertHeapify h' blk).1.batchSize = h'.batchSize := by
    unfold insertHeapify
    simp only
    generalize (if decide (h'.heapSize ≥ h'.branchSize - 1) = true then argmaxLast h'.rows else h'.heapSize + 1) = last
    by_cases hv : decide (last < h'.branchSize) = true
    · rw [if_pos hv]
      by_cases hl : last = 0
      · rw [if_pos hl]
      · rw [if_neg hl]
    · rw [if_neg hv]
  cases ov
  · exact ⟨⟨g1.npos, g1.rows, g1.ne, g1.buf⟩, g3⟩
  · exact ⟨⟨g4.npos, g4.rows, g4.ne, g4.buf⟩, hbs.trans g3⟩

theorem sift_agree {mgs : List (K × V) → List (K × V) → List (K × V)} {n : Nat} {P : V → Prop} (hm : MergesLikeSort mgs n n P)
    {rows : List (List (K × V))} (hr : ∀ r ∈ rows, Good n P r) (hne : 0 < rows.length) (f cur : Nat) (keys : List (K × V)) (hk : Good n P keys)
    (upd : List (Nat × List (K × V))) (hu : ∀ u ∈ upd, Good n P u.2) :
    siftLoopWith mgs rows f cur keys upd = siftLoop rows f cur keys upd ∧
    ∀ c k u, siftLoop rows f cur keys upd = some (c, k, u) → Good n P k ∧ ∀ x ∈ u, Good n P x.2 := by
  induction f generalizing cur keys upd with
  | zero => exact ⟨rfl, fun _ _ _ h => by simp [siftLoop] at h⟩
  | succ f ih =>
    have hl := good_rowAt hr hne (cur * 2 + 1)
    have hrr := good_rowAt hr hne (cur * 2 + 2)
    simp only [siftLoopWith, siftLoop]
    generalize (if KeyCmp.le (firstKey (rowAt rows (cur * 2 + 1))) (firstKey (rowAt rows (cur * 2 + 2))) = true then
      firstKey (rowAt rows (cur * 2 + 1)) else firstKey (rowAt rows (cur * 2 + 2))) = mn
    by_cases hc : KeyCmp.le (lastKey keys) mn = true
    · rw [if_pos hc, if_pos hc]
      refine ⟨rfl, ?_⟩
      intro c k u h
      cases h
      exact ⟨hk, hu⟩
    · rw [if_neg hc, if_neg hc]
      generalize (if KeyCmp.le (lastKey (rowAt rows (cur * 2 + 1))) (lastKey (rowAt rows (cur * 2 + 2))) = true then
        (cur * 2 + 2, cur * 2 + 1) else (cur * 2 + 1, cur * 2 + 2)) = xy
      have hs1 := good_split hl hrr
      have hs2 := good_split hk hs1.1
      rw [split_agree hm hl hrr, split_agree hm hk hs1.1]
      exact ih _ _ hs2.2 _ (by
        intro u hu'
        rcases List.mem_append.1 hu' with h1 | h1
        · exact hu u h1
        · simp only [List.mem_cons, List.not_mem_nil, or_false] at h1
          rcases h1 with rfl | rfl
          · exact hs2.1
          · exact hs1.2)

/-- `delete_mins` with such a backend. -/
theorem delete_agree {mgs : List (K × V) → List (K × V) → List (K × V)} {P : V → Prop} {h : Heap K V}
    (hms : MergesLikeSort mgs h.batchSize h.batchSize P) (hmb : MergesLikeSort mgs h.batchSize (h.batchSize - 1) P) (hg : HGood P h) :
    deleteMinsWith mgs h = deleteMins h ∧ ∀ h' r, deleteMins h = some (h', r) → HGood P h' ∧ h'.batchSize = h.batchSize := by
  have h0 := good_rowAt hg.rows hg.ne 0
  have hp := good_pad h0
  unfold deleteMinsWith deleteMins
  simp only
  rw [split_agree hmb hp hg.buf]
  have hs := good_split hp hg.buf
  by_cases hz : h.heapSize = 0
  · rw [if_pos hz, if_pos hz]
    refine ⟨rfl, ?_⟩
    intro h' r e
    cases e
    exact ⟨⟨hg.npos, good_set hg.rows hs.1 0, by simpa using hg.ne, hs.2⟩, rfl⟩
  · rw [if_neg hz, if_neg hz]
    unfold deleteHeapifyWith deleteHeapify deleteUpdatesWith deleteUpdates
    simp only
    have hl := good_rowAt hg.rows hg.ne h.heapSize
    have hs := good_split hl hg.buf
    rw [split_agree hmb hl hg.buf]
    have hrows := good_set (good_set hg.rows (good_pad hl) h.heapSize) hs.1 0
    have hne : 0 < ((h.rows.set h.heapSize ((rowAt h.rows h.heapSize).map fun p => (KeyPad.inf, p.2))).set 0
      (mergeSplit (rowAt h.rows h.heapSize) h.buffer).1).length := by simpa using hg.ne
    obtain ⟨e, g⟩ := sift_agree hms hrows hne (maxDepth h.branchSize) 0 _ hs.1 [] (by simp)
    rw [e]
    refine ⟨rfl, ?_⟩
    intro h' r e'
    simp only [Option.map_map, Option.map_eq_some_iff] at e'
    obtain ⟨⟨c, k, u⟩, e1, e2⟩ := e'
    obtain ⟨g1, g2⟩ := g c k u e1
    cases e2
    have hsc := good_scatter (((u ++ [(c, k)]).take (maxDepth h.branchSize * 2 + 1))) (by
      intro x hx
      rcases List.mem_append.1 (List.mem_of_mem_take hx) with h1 | h1
      · exact g2 x h1
      · simp only [List.mem_cons, List.not_mem_nil, or_false] at h1
        exact h1 ▸ g1) hrows
    exact ⟨⟨hg.npos, hsc.1, by simp only [Function.comp]; rw [hsc.2]; exact hne, hs.2⟩, rfl⟩

theorem hgood_build (total batch : Nat) (ht : 0 < total) (hb : 0 < batch) (dflt : V) {P : V → Prop} (hd : P dflt) :
    HGood P (build total batch dflt : Heap K V) := by
  have hrep : ∀ n, Good n P (List.replicate n ((KeyPad.inf : K), dflt)) := fun n =>
    ⟨List.length_replicate, List.pairwise_replicate.2 (Or.inr (KeyLE.refl _)), fun x hx => by rw [List.eq_of_mem_replicate hx]; exact hd⟩
  refine ⟨hb, ?_, ?_, hrep _⟩
  · intro r hr
    rw [List.eq_of_mem_replicate hr]
    exact hrep _
  · show 0 < (List.replicate _ _).length
    rw [List.length_replicate]
    split
    · exact Nat.div_pos (Nat.le_of_dvd ht (Nat.dvd_of_mod_eq_zero (by assumption))) hb
    · exact Nat.succ_pos _

end Agree

end Bgpq
