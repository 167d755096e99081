import Verif.BgpqProps
import Verif.BgpqNaN

/-!
# The priority queue moves values as a whole

The code keeps the values of a `BGPQ` as one instance of the value class: a tree of arrays.  Every merge computes a permutation from the
*keys* and applies it to each array (`val[sorted_idx]`, _utils.py:33-38, merge_split/common.py; `_scatter_update_rows`, _utils.py:41-63).
`BgpqModel` runs that program on (key, value) pairs.  Running it on one array of the tree means running it with the values replaced by
their components; the theorems here say that the runs of the components are the components of the run, for every component
`f : V → W` (a field, a nested instance, one entry of an array).
-/

namespace Bgpq

open MergeModel BgpqSpec

variable {K : Type u} [KeyPad K] {V : Type v} {W : Type v}

/-- A pair with the component `f` of its value. -/
def pmap (f : V → W) (p : K × V) : K × W := (p.1, f p.2)

/-- The heap that stores the component `f` of the values. -/
def Heap.mapV (f : V → W) (h : Heap K V) : Heap K W :=
  { branchSize := h.branchSize, batchSize := h.batchSize, heapSize := h.heapSize, bufferSize := h.bufferSize,
    rows := h.rows.map fun r => r.map (pmap f), buffer := h.buffer.map (pmap f) }

def mapOp (f : V → W) : Op K V → Op K W
  | .insert b => .insert (b.map (pmap f))
  | .deleteMins => .deleteMins

def mapOut (f : V → W) (o : Out K V) : Out K W := ⟨o.ret.map fun r => r.map (pmap f), o.size⟩

theorem sort_pmap (f : V → W) (l : List (K × V)) : sortKeyVal (l.map (pmap f)) = (sortKeyVal l).map (pmap f) :=
  Jax.stableSort_map (le := keyLE) (le' := keyLE) (f := pmap f) (fun _ _ => rfl) l

theorem mergeSplit_pmap (f : V → W) (a b : List (K × V)) :
    mergeSplit (a.map (pmap f)) (b.map (pmap f)) = ((mergeSplit a b).1.map (pmap f), (mergeSplit a b).2.map (pmap f)) := by
  simp only [mergeSplit]
  rw [← List.map_append, sort_pmap, List.length_map, List.map_take, List.map_drop]

theorem nFinite_pmap (f : V → W) (l : List (K × V)) : nFinite (l.map (pmap f)) = nFinite l := by
  unfold nFinite
  rw [List.countP_map]
  rfl

theorem rowAt_pmap (f : V → W) (rows : List (List (K × V))) (i : Nat) :
    rowAt (rows.map fun r => r.map (pmap f)) i = (rowAt rows i).map (pmap f) := by
  simp only [rowAt, Jax.gatherU, List.length_map, List.getElem?_map]
  cases rows[Jax.clampIdx rows.length (i : Int)]? <;> rfl

theorem firstKey_pmap (f : V → W) (r : List (K × V)) : firstKey (r.map (pmap f)) = firstKey r := by
  cases r <;> rfl

theorem lastKey_pmap (f : V → W) (r : List (K × V)) : lastKey (r.map (pmap f)) = lastKey r := by
  unfold lastKey
  rw [List.getLast?_map]
  cases r.getLast? <;> rfl

theorem size_mapV (f : V → W) (h : Heap K V) : (h.mapV f).size = h.size := by
  unfold Heap.size
  simp only [Heap.mapV]
  rw [rowAt_pmap, nFinite_pmap]
  rfl

theorem argmaxLast_pmap (f : V → W) (rows : List (List (K × V))) :
    argmaxLast (rows.map fun r => r.map (pmap f)) = argmaxLast rows := by
  have : (rows.map fun r => r.map (pmap f)).map lastKey = rows.map lastKey := by
    rw [List.map_map]
    exact List.map_congr_left fun r _ => lastKey_pmap f r
  unfold argmaxLast
  rw [this]

theorem mergeBuffer_pmap (f : V → W) (h : Heap K V) (b : List (K × V)) :
    mergeBuffer (h.mapV f) (b.map (pmap f)) =
      ((mergeBuffer h b).1.mapV f, (mergeBuffer h b).2.1.map (pmap f), (mergeBuffer h b).2.2) := by
  simp only [mergeBuffer]
  have hs : sortKeyVal (b.map (pmap f) ++ (h.mapV f).buffer) = (sortKeyVal (b ++ h.buffer)).map (pmap f) := by
    rw [← sort_pmap, List.map_append]; rfl
  rw [hs, nFinite_pmap]
  have hn : (h.mapV f).batchSize = h.batchSize := rfl
  rw [hn]
  by_cases ho : nFinite (sortKeyVal (b ++ h.buffer)) ≥ h.batchSize
  · rw [decide_eq_true ho]
    simp only [if_true, Heap.mapV, List.map_drop, List.map_take]
    rw [← List.map_drop, nFinite_pmap]
  · rw [decide_eq_false ho]
    simp only [Bool.false_eq_true, if_false, Heap.mapV, List.map_drop, List.map_take, List.length_map]
    rw [← List.map_take, nFinite_pmap]

theorem scanPath_pmap (f : V → W) (nodes : List (List (K × V) × Bool)) (c : List (K × V)) :
    scanPath (nodes.map fun x => (x.1.map (pmap f), x.2)) (c.map (pmap f)) =
      ((scanPath nodes c).1.map fun r => r.map (pmap f), (scanPath nodes c).2.map (pmap f)) := by
  induction nodes generalizing c with
  | nil => rfl
  | cons x rest ih =>
    obtain ⟨node, m⟩ := x
    cases m with
    | false =>
      simp only [List.map_cons, scanPath, Bool.false_eq_true, if_false]
      rw [ih]
    | true =>
      simp only [List.map_cons, scanPath, if_true]
      rw [mergeSplit_pmap]
      simp only
      rw [ih]

omit [KeyPad K] in
theorem scatterRows_pmap (f : V → W) (rows : List (List (K × V))) (upd : List (Nat × List (K × V))) :
    scatterRows (rows.map fun r => r.map (pmap f)) (upd.map fun u => (u.1, u.2.map (pmap f))) =
      (scatterRows rows upd).map fun r => r.map (pmap f) := by
  unfold scatterRows
  induction upd generalizing rows with
  | nil => rfl
  | cons u upd ih =>
    rw [List.map_cons, List.foldl_cons, List.foldl_cons, ← ih]
    congr 1
    rw [List.length_map]
    by_cases hu : u.1 < rows.length
    · rw [if_pos hu, if_pos hu, List.map_set]
    · rw [if_neg hu, if_neg hu]

theorem insertUpdates_pmap (f : V → W) (h : Heap K V) (t : Nat) (b : List (K × V)) :
    insertUpdates (h.mapV f) t (b.map (pmap f)) = (insertUpdates h t b).map fun u => (u.1, u.2.map (pmap f)) := by
  simp only [insertUpdates]
  have hb : (h.mapV f).branchSize = h.branchSize := rfl
  rw [hb]
  generalize (List.map (fun x => (x.1.1, x.1.2 && decide (x.2 > 0))) (pathIndices (maxDepth h.branchSize) t).zipIdx) = masked
  have hnodes : (masked.map fun x => (rowAt (h.mapV f).rows (if x.2 = true then x.1 else 0), x.2)) =
      (masked.map fun x => (rowAt h.rows (if x.2 = true then x.1 else 0), x.2)).map fun x => (x.1.map (pmap f), x.2) := by
    rw [List.map_map]
    refine List.map_congr_left fun x _ => ?_
    show (rowAt (h.rows.map fun r => r.map (pmap f)) _, x.2) = _
    rw [rowAt_pmap]
    rfl
  rw [hnodes, scanPath_pmap]
  simp only
  rw [List.zip_map_right]
  rfl

theorem insertHeapify_pmap (f : V → W) (h : Heap K V) (b : List (K × V)) :
    insertHeapify (h.mapV f) (b.map (pmap f)) = ((insertHeapify h b).1.mapV f, (insertHeapify h b).2) := by
  simp only [insertHeapify]
  have e1 : (h.mapV f).heapSize = h.heapSize := rfl
  have e2 : (h.mapV f).branchSize = h.branchSize := rfl
  have e3 : argmaxLast (h.mapV f).rows = argmaxLast h.rows := argmaxLast_pmap f h.rows
  rw [e1, e2, e3]
  generalize (if decide (h.heapSize ≥ h.branchSize - 1) = true then argmaxLast h.rows else h.heapSize + 1) = last
  by_cases hl : last < h.branchSize
  · simp only [hl, decide_true, if_true, Bool.true_and]
    by_cases h0 : last = 0
    · simp only [h0, if_true]
      congr 1
      have hr : (mergeSplit (rowAt (h.mapV f).rows 0) (b.map (pmap f))).1 = (mergeSplit (rowAt h.rows 0) b).1.map (pmap f) := by
        show (mergeSplit (rowAt (h.rows.map fun r => r.map (pmap f)) 0) _).1 = _
        rw [rowAt_pmap, mergeSplit_pmap]
      rw [hr]
      unfold Heap.mapV
      simp only [List.map_set]
    · simp only [h0, if_false]
      congr 1
      rw [insertUpdates_pmap]
      have hr : (h.mapV f).rows = h.rows.map fun r => r.map (pmap f) := rfl
      rw [hr, scatterRows_pmap]
      rfl
  · simp only [hl, decide_false, Bool.false_eq_true, if_false, Bool.false_and]

theorem insert_mapV (f : V → W) (h : Heap K V) (b : List (K × V)) : insert (h.mapV f) (b.map (pmap f)) = (insert h b).mapV f := by
  simp only [insert]
  rw [sort_pmap]
  have hroot : mergeSplit (rowAt (h.mapV f).rows 0) ((sortKeyVal b).map (pmap f)) =
      ((mergeSplit (rowAt h.rows 0) (sortKeyVal b)).1.map (pmap f), (mergeSplit (rowAt h.rows 0) (sortKeyVal b)).2.map (pmap f)) := by
    show mergeSplit (rowAt (h.rows.map fun r => r.map (pmap f)) 0) _ = _
    rw [rowAt_pmap, mergeSplit_pmap]
  rw [hroot]
  simp only
  generalize mergeSplit (rowAt h.rows 0) (sortKeyVal b) = m
  have hset : ({ h.mapV f with rows := (h.mapV f).rows.set 0 (m.1.map (pmap f)) } : Heap K W) = ({ h with rows := h.rows.set 0 m.1 } : Heap K V).mapV f := by
    unfold Heap.mapV
    simp only [List.map_set]
  rw [hset, mergeBuffer_pmap]
  simp only
  generalize mergeBuffer { h with rows := h.rows.set 0 m.1 } m.2 = r
  cases hr : r.2.2 with
  | false => simp only [Bool.false_eq_true, if_false]; rfl
  | true =>
    simp only [if_true]
    rw [insertHeapify_pmap]
    rfl

theorem siftLoop_pmap (f : V → W) (rows : List (List (K × V))) (fuel cur : Nat) (keys : List (K × V)) (upd : List (Nat × List (K × V))) :
    siftLoop (rows.map fun r => r.map (pmap f)) fuel cur (keys.map (pmap f)) (upd.map fun u => (u.1, u.2.map (pmap f))) =
      (siftLoop rows fuel cur keys upd).map fun x => (x.1, x.2.1.map (pmap f), x.2.2.map fun u => (u.1, u.2.map (pmap f))) := by
  induction fuel generalizing cur keys upd with
  | zero => rfl
  | succ fuel ih =>
    simp only [siftLoop, rowAt_pmap, firstKey_pmap, lastKey_pmap]
    generalize (if KeyCmp.le (firstKey (rowAt rows (cur * 2 + 1))) (firstKey (rowAt rows (cur * 2 + 2))) = true then
      firstKey (rowAt rows (cur * 2 + 1)) else firstKey (rowAt rows (cur * 2 + 2))) = mn
    by_cases hc : KeyCmp.le (lastKey keys) mn = true
    · rw [if_pos hc, if_pos hc]; rfl
    · rw [if_neg hc, if_neg hc]
      simp only [mergeSplit_pmap]
      rw [← ih]
      congr 1
      rw [List.map_append]
      rfl

theorem deleteUpdates_pmap (f : V → W) (br : Nat) (rows : List (List (K × V))) (root : List (K × V)) :
    deleteUpdates br (rows.map fun r => r.map (pmap f)) (root.map (pmap f)) =
      (deleteUpdates br rows root).map fun upd => upd.map fun u => (u.1, u.2.map (pmap f)) := by
  unfold deleteUpdates
  have := siftLoop_pmap f rows (maxDepth br) 0 root []
  rw [List.map_nil] at this
  rw [this, Option.map_map, Option.map_map]
  congr 1
  funext x
  simp only [Function.comp_apply, List.map_take, List.map_append, List.map_cons, List.map_nil]

theorem infRow_pmap (f : V → W) (r : List (K × V)) :
    ((r.map (pmap f)).map fun p => ((KeyPad.inf : K), p.2)) = (r.map fun p => ((KeyPad.inf : K), p.2)).map (pmap f) := by
  rw [List.map_map, List.map_map]
  rfl

theorem deleteHeapify_mapV (f : V → W) (h : Heap K V) : deleteHeapify (h.mapV f) = (deleteHeapify h).map fun h' => h'.mapV f := by
  simp only [deleteHeapify]
  have e1 : (h.mapV f).heapSize = h.heapSize := rfl
  have e2 : (h.mapV f).branchSize = h.branchSize := rfl
  have e3 : rowAt (h.mapV f).rows h.heapSize = (rowAt h.rows h.heapSize).map (pmap f) := rowAt_pmap f h.rows h.heapSize
  have e4 : (h.mapV f).buffer = h.buffer.map (pmap f) := rfl
  have e5 : (h.mapV f).rows = h.rows.map fun r => r.map (pmap f) := rfl
  rw [e1, e2, e3, e4, e5, mergeSplit_pmap]
  simp only
  generalize mergeSplit (rowAt h.rows h.heapSize) h.buffer = m
  rw [infRow_pmap, ← List.map_set, ← List.map_set, deleteUpdates_pmap, Option.map_map, Option.map_map]
  congr 1
  funext upd
  simp only [Function.comp_apply]
  rw [scatterRows_pmap]
  rfl

theorem deleteMins_mapV (f : V → W) (h : Heap K V) :
    deleteMins (h.mapV f) = (deleteMins h).map fun r => (r.1.mapV f, r.2.map (pmap f)) := by
  simp only [deleteMins]
  have e1 : (h.mapV f).heapSize = h.heapSize := rfl
  have e3 : rowAt (h.mapV f).rows 0 = (rowAt h.rows 0).map (pmap f) := rowAt_pmap f h.rows 0
  have e4 : (h.mapV f).buffer = h.buffer.map (pmap f) := rfl
  rw [e1, e3]
  by_cases h0 : h.heapSize = 0
  · rw [if_pos h0, if_pos h0, infRow_pmap, e4, mergeSplit_pmap]
    simp only [Option.map_some]
    congr 2
    unfold Heap.mapV
    simp only [List.map_set]
  · rw [if_neg h0, if_neg h0, deleteHeapify_mapV, Option.map_map, Option.map_map]
    rfl

theorem build_mapV (f : V → W) (total batch : Nat) (d : V) : (build total batch d : Heap K V).mapV f = build total batch (f d) := by
  unfold build Heap.mapV
  simp only [List.map_replicate]
  rfl

theorem makeBatched_pmap (f : V → W) (d : V) (n : Nat) (l : List (K × V)) :
    makeBatched (f d) n (l.map (pmap f)) = (makeBatched d n l).map fun r => r.map (pmap f) := by
  unfold makeBatched
  rw [List.length_map]
  by_cases h : l.length ≤ n
  · rw [if_pos h, if_pos h]
    simp only [Option.map_some, List.map_append, List.map_replicate]
    rfl
  · rw [if_neg h, if_neg h]; rfl

theorem step_mapV (f : V → W) (h : Heap K V) (op : Op K V) :
    step (h.mapV f) (mapOp f op) = (step h op).map fun r => (r.1.mapV f, mapOut f r.2) := by
  cases op with
  | insert b =>
    show some (insert (h.mapV f) (b.map (pmap f)), _) = _
    rw [insert_mapV, size_mapV]
    rfl
  | deleteMins =>
    show (deleteMins (h.mapV f)).map _ = ((deleteMins h).map _).map _
    rw [deleteMins_mapV, Option.map_map, Option.map_map]
    congr 1
    funext r
    simp only [Function.comp_apply]
    rw [size_mapV]
    rfl

/-- **C88, priority queue.**  For every component `f` of the values (a field, a nested instance, one entry of an array), every heap and
every history: running the program on the components gives the components of what it gives on whole records, in every returned batch,
at every position, with the same keys and sizes.  So the program may be run array by array, as the code does. -/
theorem run_mapV (f : V → W) (h : Heap K V) (ops : List (Op K V)) :
    run (h.mapV f) (ops.map (mapOp f)) = (run h ops).map fun r => (r.1.mapV f, r.2.map (mapOut f)) := by
  induction ops generalizing h with
  | nil => rfl
  | cons op ops ih =>
    simp only [List.map_cons, run]
    rw [step_mapV]
    cases step h op with
    | none => rfl
    | some r =>
      simp only [Option.map_some, Option.bind_some]
      rw [ih]
      cases run r.1 ops <;> rfl

/-- The same from `BGPQ.build`, whose values are all the default record. -/
theorem bgpq_fields_together (f : V → W) (total batch : Nat) (d : V) (ops : List (Op K V)) :
    run (build total batch (f d) : Heap K W) (ops.map (mapOp f)) =
      (run (build total batch d) ops).map fun r => (r.1.mapV f, r.2.map (mapOut f)) := by
  rw [← build_mapV, run_mapV]

/-- Pairs returned by a history. -/
def natRun {V : Type} (r : Option (Heap (Option Nat) V × List (Out (Option Nat) V))) : List (Nat × List (Option Nat × V)) :=
  match r with
  | some x => x.2.map fun o => (o.size, o.ret.getD [])
  | none => []

/-- Records with two fields, and the run of the second field alone. -/
example : natRun (run (build 8 2 (0, 0)) [.insert [(some 5, (1, 10)), (some 3, (2, 20))], .insert [(some 4, (3, 30)), (some 9, (4, 40))], .deleteMins]) =
      [(2, []), (4, []), (2, [(some 3, (2, 20)), (some 4, (3, 30))])] ∧
    natRun (run (build 8 2 0) [.insert [(some 5, 10), (some 3, 20)], .insert [(some 4, 30), (some 9, 40)], .deleteMins]) =
      [(2, []), (4, []), (2, [(some 3, 20), (some 4, 30)])] := by
  decide +kernel

end Bgpq
