import Verif.BgpqProps

/-!
# C92: blocks of any length given to `BGPQ.insert`

`insert` does not check the length of its block (`xtructure/bgpq/bgpq.py:163-176`, `_insert.py:195-221`);
the model functions `Bgpq.insert` and `Bgpq.mergeBuffer` follow the code for every length.  With a buffer
of `m` entries and a block of `L` the new buffer has `L + m - batch_size` entries.
-/

set_option linter.unusedSectionVars false

namespace Bgpq

open MergeModel BgpqSpec

variable {K : Type u} [KeyInf K] {V : Type v}

/-- The invariant that is left when blocks may have any length. -/
structure LInv (h : Heap K V) : Prop where
  npos : 0 < h.batchSize
  store : StoreInv h.batchSize h.branchSize h.heapSize h.rows
  bufSorted : RowSorted h.buffer
  bufGe : rowLe (R h.rows 0) h.buffer
  bufSize : h.bufferSize = nFinite h.buffer ∨ (h.heapSize = 0 ∧ h.bufferSize = 0)

theorem Inv.toLInv {h : Heap K V} (hi : Inv h) : LInv h :=
  ⟨hi.npos, hi.store, hi.bufSorted, hi.bufGe, Or.inl hi.bufSize⟩

/-- Everything about one `insert`. -/
theorem any_insert_spec {h : Heap K V} (hi : LInv h) (block : List (K × V)) :
    ∃ d : List (K × V), LInv (insert h block) ∧
      (insert h block).bufferSize = nFinite (insert h block).buffer ∧
      (insert h block).buffer.length = block.length + h.buffer.length - h.batchSize ∧
      (insert h block).branchSize = h.branchSize ∧ (insert h block).batchSize = h.batchSize ∧
      (∀ p, (allPairs (insert h block)).countP p + d.countP p
        = (allPairs h).countP p + block.countP p) ∧
      rowLe (R (insert h block).rows 0) d ∧
      (nFinite d = 0 ∨
       ((insert h block).heapSize + 1 = h.branchSize ∧ d.length = h.batchSize ∧ RowFull d ∧
        ∃ z ∈ d, ∀ x ∈ (insert h block).rows.flatten, KeyCmp.le x.1 z.1 = true) ∨
       ((nFinite (R h.rows 0) + nFinite block - h.batchSize) + nFinite h.buffer < h.batchSize)) ∧
      ((nFinite (R h.rows 0) + nFinite block - h.batchSize) + nFinite h.buffer < h.batchSize →
        (insert h block).heapSize = h.heapSize ∧
        nFinite d = (nFinite (R h.rows 0) + nFinite block - h.batchSize) + nFinite h.buffer
          - (block.length + h.buffer.length - h.batchSize)) := by
  have hn := hi.npos
  have hs := hi.store
  have hlen := hs.len
  have hlt := hs.hs_lt
  have hl0 : 0 < h.rows.length := by omega
  -- the root merge
  generalize hb' : sortKeyVal block = b'
  have hb'l : b'.length = block.length := by rw [← hb']; exact (sortKeyVal_perm block).length_eq
  have hb'c : ∀ p, b'.countP p = block.countP p := fun p => by
    rw [← hb']; exact (sortKeyVal_perm block).countP_eq p
  generalize hroot : (mergeSplit (R h.rows 0) b').1 = root
  generalize hrest : (mergeSplit (R h.rows 0) b').2 = rest
  have hrl : (R h.rows 0).length = h.batchSize := hs.rowLen 0 (by omega)
  have hrootlen : root.length = h.batchSize := by rw [← hroot, ms_len1]; exact hrl
  have hrestlen : rest.length = block.length := by rw [← hrest, ms_len2]; exact hb'l
  have hcnt1 : ∀ p, root.countP p + rest.countP p = (R h.rows 0).countP p + block.countP p := by
    intro p; rw [← hroot, ← hrest, ms_count, hb'c]
  have hle1 : rowLe root rest := by rw [← hroot, ← hrest]; exact ms_le _ _
  have hle2 : rowLe root h.buffer := by rw [← hroot]; exact ms_lo_le_of_left _ _ hi.bufGe
  have hR0 : R (h.rows.set 0 root) 0 = root := by rw [R_set hl0, if_pos rfl]
  have hs1 : StoreInv h.batchSize h.branchSize h.heapSize (h.rows.set 0 root) := by
    have hsh := hs.shape.step (i := 0) (c := b') (by omega) (by omega)
    rw [hroot] at hsh
    refine ⟨hsh.len, hsh.rowLen, hsh.sorted, hsh.heap, hlt, ?_, ?_⟩
    · intro i h1 h2
      rw [R_set hl0, if_neg (by omega)]; exact hs.empty i h1 h2
    · intro h0 i h1
      rw [R_set hl0]
      split
      · rw [rowFull_iff_count, hrootlen, ← hroot, (ms_fin_first _ _).1, hrl,
          rowFull_iff_count.1 (hs.full h0 0 (by omega)), hrl]
        omega
      · exact hs.full h0 i h1
  -- the buffer merge
  generalize hsrt : sortKeyVal (rest ++ h.buffer) = s
  have hslen : s.length = block.length + h.buffer.length := by
    rw [← hsrt, (sortKeyVal_perm _).length_eq, List.length_append, hrestlen]
  have hscnt : ∀ p, s.countP p = rest.countP p + h.buffer.countP p := by
    intro p; rw [← hsrt, (sortKeyVal_perm _).countP_eq, List.countP_append]
  have hsmem : ∀ x ∈ s, x ∈ rest ∨ x ∈ h.buffer := by
    intro x hx; rw [← hsrt] at hx
    exact List.mem_append.1 ((sortKeyVal_perm _).mem_iff.1 hx)
  have hssorted : RowSorted s := by rw [← hsrt]; exact sortKeyVal_sorted _
  have hle3 : rowLe root s := by
    intro x hx y hy
    rcases hsmem y hy with h' | h'
    · exact hle1 x hx y h'
    · exact hle2 x hx y h'
  have hslef : nFinite s ≤ s.length := List.countP_le_length
  have hsF : nFinite s = (nFinite (R h.rows 0) + nFinite block - h.batchSize) + nFinite h.buffer := by
    have e1 := (ms_fin_first (R h.rows 0) b').2
    rw [hrest, hrl] at e1
    have e2 := hscnt fin
    have e3 := hb'c fin
    unfold nFinite at *
    omega
  rw [← hsF]
  by_cases hov : nFinite s ≥ h.batchSize
  · -- buffer overflow
    let h1 : Heap K V := { h with rows := h.rows.set 0 root, buffer := s.drop h.batchSize, bufferSize := nFinite (s.drop h.batchSize) }
    have hmb : mergeBuffer { h with rows := h.rows.set 0 root } rest = (h1, s.take h.batchSize, true) := by
      simp only [mergeBuffer, hsrt, hov, decide_true, if_true, h1]
    have hins : insert h block = { (insertHeapify h1 (s.take h.batchSize)).1 with
        heapSize := (insertHeapify h1 (s.take h.batchSize)).1.heapSize +
          (if (insertHeapify h1 (s.take h.batchSize)).2 then 1 else 0) } := by
      unfold insert
      simp only [rowAt_of_lt hl0, hb', hroot, hrest, hmb, if_true]
    have hcl : (s.take h.batchSize).length = h.batchSize := by
      rw [List.length_take]; omega
    have hcf : RowFull (s.take h.batchSize) := by
      rw [rowFull_iff_count, hcl]
      by_cases hd : nFinite (s.drop h.batchSize) = 0
      · have := List.countP_append (p := (fin : K × V → Bool)) (l₁ := s.take h.batchSize)
          (l₂ := s.drop h.batchSize)
        rw [List.take_append_drop] at this
        have h1 : (s.take h.batchSize).countP fin ≤ (s.take h.batchSize).length := List.countP_le_length
        unfold nFinite at *
        omega
      · have hex : ∃ y ∈ s.drop h.batchSize, fin y = true :=
          List.countP_pos_iff.1 (by unfold nFinite at hd; omega)
        obtain ⟨y, hy, hf⟩ := hex
        have hsp := hssorted
        unfold RowSorted at hsp
        rw [← List.take_append_drop h.batchSize s] at hsp
        have := rowFull_iff_count.1 (fun x hx =>
          fin_of_le ((List.pairwise_append.1 hsp).2.2 x hx y hy) hf : RowFull (s.take h.batchSize))
        rw [this, hcl]
    have hrf : RowFull root := by
      have hne : s.take h.batchSize ≠ [] := by
        intro he; rw [he] at hcl; simp at hcl; omega
      obtain ⟨y, hy⟩ := List.exists_mem_of_ne_nil _ hne
      intro x hx
      exact fin_of_le (hle3 x hx y (List.mem_of_mem_take hy)) (hcf y hy)
    obtain ⟨d, d1, d2, d3, d4, d5, d6, d7⟩ := insertHeapify_spec (h := h1) hn hs1
      (by show RowFull (R (h.rows.set 0 root) 0); rw [hR0]; exact hrf) hcl hcf
      (by show rowLe (R (h.rows.set 0 root) 0) _; rw [hR0]
          intro x hx y hy; exact hle3 x hx y (List.mem_of_mem_take hy))
    rw [hins]
    generalize hres : insertHeapify h1 (s.take h.batchSize) = res at *
    obtain ⟨hh, added⟩ := res
    dsimp only at *
    rw [d3]
    refine ⟨d, ⟨hn, d2, ?_, ?_, Or.inl rfl⟩, rfl, ?_, rfl, rfl, ?_, d6, ?_, fun hlt' => absurd hov (by omega)⟩
    rotate_left 2
    · show (s.drop h.batchSize).length = _
      rw [List.length_drop, hslen]
    rotate_left 2
    · exact (List.Pairwise.sublist (List.drop_sublist _ _) hssorted)
    · show rowLe (R hh.rows 0) (s.drop h.batchSize)
      apply d5
      show rowLe (R (h.rows.set 0 root) 0) _
      rw [hR0]
      intro x hx y hy; exact hle3 x hx y (List.mem_of_mem_drop hy)
    · intro p
      unfold allPairs
      show (hh.rows.flatten ++ s.drop h.batchSize).countP p + d.countP p = _
      rw [List.countP_append, List.countP_append]
      have e1 := d4 p
      have e2 := count_set p hl0 root
      have e3 := hcnt1 p
      have e4 := hscnt p
      have e5 : (s.take h.batchSize).countP p + (s.drop h.batchSize).countP p = s.countP p := by
        rw [← List.countP_append, List.take_append_drop]
      have e6 : h1.rows = h.rows.set 0 root := rfl
      rw [e6] at e1
      omega
    · rcases d7 with hd | ⟨g1, g2, g3⟩
      · exact Or.inl (rowInf_iff_count.1 hd)
      · refine Or.inr (Or.inl ⟨?_, d1, g2, g3⟩)
        have hlt' := d2.hs_lt
        have e1 : h1.heapSize = h.heapSize := rfl
        have e2 : h1.branchSize = h.branchSize := rfl
        rw [e1, e2] at *
        show h.heapSize + _ + 1 = _
        omega
  · -- no overflow
    have hmb : mergeBuffer { h with rows := h.rows.set 0 root } rest =
        ({ h with rows := h.rows.set 0 root, buffer := s.take (s.length - h.batchSize), bufferSize := nFinite (s.take (s.length - h.batchSize)) },
         s.drop (s.length - h.batchSize), false) := by
      simp only [mergeBuffer, hsrt, hov, decide_false, if_false, Bool.false_eq_true]
    have hins : insert h block = { h with rows := h.rows.set 0 root, buffer := s.take (s.length - h.batchSize), bufferSize := nFinite (s.take (s.length - h.batchSize)) } := by
      unfold insert
      simp only [rowAt_of_lt hl0, hb', hroot, hrest, hmb, Bool.false_eq_true, if_false, Nat.add_zero]
    have htl : (s.take (s.length - h.batchSize)).length = s.length - h.batchSize := by
      rw [List.length_take]; omega
    have hcsum : nFinite (s.take (s.length - h.batchSize)) + nFinite (s.drop (s.length - h.batchSize)) = nFinite s := by
      unfold nFinite; rw [← List.countP_append, List.take_append_drop]
    have htf : nFinite (s.take (s.length - h.batchSize)) ≤ s.length - h.batchSize := by
      have : nFinite (s.take (s.length - h.batchSize)) ≤ (s.take (s.length - h.batchSize)).length :=
        List.countP_le_length
      rwa [htl] at this
    have hlost : nFinite (s.drop (s.length - h.batchSize)) = nFinite s - (s.length - h.batchSize) := by
      by_cases hz : nFinite (s.drop (s.length - h.batchSize)) = 0
      · omega
      · have hex : ∃ y ∈ s.drop (s.length - h.batchSize), fin y = true :=
          List.countP_pos_iff.1 (by unfold nFinite at hz; omega)
        obtain ⟨y, hy, hf⟩ := hex
        have hsp := hssorted
        unfold RowSorted at hsp
        rw [← List.take_append_drop (s.length - h.batchSize) s] at hsp
        have := rowFull_iff_count.1 (fun x hx =>
          fin_of_le ((List.pairwise_append.1 hsp).2.2 x hx y hy) hf : RowFull (s.take (s.length - h.batchSize)))
        omega
    rw [hins]
    refine ⟨s.drop (s.length - h.batchSize), ⟨hn, hs1, ?_, ?_, Or.inl rfl⟩, rfl, ?_, rfl, rfl, ?_, ?_,
      Or.inr (Or.inr (by omega)), fun _ => ⟨rfl, by rw [hlost, hslen]⟩⟩
    · exact (List.Pairwise.sublist (List.take_sublist _ _) hssorted)
    · show rowLe (R (h.rows.set 0 root) 0) _
      rw [hR0]
      intro x hx y hy; exact hle3 x hx y (List.mem_of_mem_take hy)
    · show (s.take (s.length - h.batchSize)).length = _
      rw [htl, hslen]
    · intro p
      unfold allPairs
      show ((h.rows.set 0 root).flatten ++ s.take (s.length - h.batchSize)).countP p + _ = _
      rw [List.countP_append, List.countP_append]
      have e2 := count_set p hl0 root
      have e3 := hcnt1 p
      have e4 := hscnt p
      have e5 : (s.take (s.length - h.batchSize)).countP p + (s.drop (s.length - h.batchSize)).countP p = s.countP p := by
        rw [← List.countP_append, List.take_append_drop]
      omega
    · show rowLe (R (h.rows.set 0 root) 0) _
      rw [hR0]
      intro x hx y hy; exact hle3 x hx y (List.mem_of_mem_drop hy)

/-- Everything about the sift-down branch of `delete_mins`. -/
theorem any_deleteHeapify_spec {h : Heap K V} (hi : LInv h) (hpos : 0 < h.heapSize) :
    ∃ h', deleteHeapify h = some h' ∧ LInv h' ∧ h'.branchSize = h.branchSize ∧
      h'.batchSize = h.batchSize ∧ h'.heapSize = h.heapSize - 1 ∧ h'.buffer.length = h.buffer.length ∧
      (∃ upd, deleteUpdates h.branchSize
          ((h.rows.set h.heapSize ((R h.rows h.heapSize).map fun p => (KeyPad.inf, p.2))).set 0
            (mergeSplit (R h.rows h.heapSize) h.buffer).1)
          (mergeSplit (R h.rows h.heapSize) h.buffer).1 = some upd ∧ (upd.map Prod.fst).Nodup) ∧
      ∀ p : K × V → Bool, (allPairs h').countP (fun x => p x && fin x) + (R h.rows 0).countP (fun x => p x && fin x)
        = (allPairs h).countP (fun x => p x && fin x) := by
  have hn := hi.npos
  have hs := hi.store
  have hlen := hs.len
  have hlt := hs.hs_lt
  have hlast : h.heapSize < h.rows.length := by omega
  have hlastfull : RowFull (R h.rows h.heapSize) := hs.full hpos _ (Nat.le_refl _)
  have hlastlen : (R h.rows h.heapSize).length = h.batchSize := hs.rowLen _ hlt
  generalize hroot : (mergeSplit (R h.rows h.heapSize) h.buffer).1 = root at *
  generalize hbuf : (mergeSplit (R h.rows h.heapSize) h.buffer).2 = buf at *
  generalize hinfrow : ((R h.rows h.heapSize).map fun p => ((KeyPad.inf : K), p.2)) = infr at *
  have hinf : RowInf infr := by rw [← hinfrow]; exact rowInf_map_inf _
  have hinflen : infr.length = h.batchSize := by rw [← hinfrow, List.length_map]; exact hlastlen
  have hrootlen : root.length = h.batchSize := by rw [← hroot, ms_len1]; exact hlastlen
  have hff := ms_fin_first (R h.rows h.heapSize) h.buffer
  rw [hroot, hbuf, rowFull_iff_count.1 hlastfull, hlastlen] at hff
  have hrootfull : RowFull root := by rw [rowFull_iff_count, hrootlen]; omega
  have hbufcnt : nFinite buf = nFinite h.buffer := by omega
  generalize hrows0 : (h.rows.set h.heapSize infr).set 0 root = rows0 at *
  have hl1 : 0 < (h.rows.set h.heapSize infr).length := by simp; omega
  have hR0 : ∀ j, R rows0 j = if j = 0 then root else if j = h.heapSize then infr else R h.rows j := by
    intro j
    rw [← hrows0, R_set hl1, R_set hlast]
  have hlen0 : rows0.length = h.branchSize := by rw [← hrows0]; simp [hlen]
  have hempty0 : ∀ i, h.heapSize - 1 < i → i < h.branchSize → RowInf (R rows0 i) := by
    intro i h1 h2
    rw [hR0, if_neg (by omega)]
    split
    · exact hinf
    · exact hs.empty i (by omega) h2
  have hrl0 : ∀ i, i < h.branchSize → (R rows0 i).length = h.batchSize := by
    intro i hi'
    rw [hR0]
    split
    · exact hrootlen
    · split
      · exact hinflen
      · exact hs.rowLen i hi'
  have hscat : scatterRows rows0 ([] ++ [(0, root)]) = rows0 := by
    rw [scatterRows_root _ _ (by omega), ← hrows0, List.set_set]
  have hSI : SInv h.batchSize h.branchSize (h.heapSize - 1) buf rows0 0 := by
    refine ⟨hlen0, by omega, hrl0, ?_, ?_, ?_, hempty0, ?_, ?_⟩
    · intro i hi'
      rw [hR0]
      split
      · rw [← hroot]; exact ms_sorted1 _ _
      · split
        · exact rowSorted_of_inf hinf
        · exact hs.sorted i hi'
    · intro j hj hjB hp
      by_cases hjl : h.heapSize - 1 < j
      · exact rowLe_inf (hempty0 j hjl hjB)
      · rw [hR0, hR0, if_neg hp, if_neg (by omega), if_neg (by omega), if_neg (by omega)]
        exact hs.heap j hj hjB
    · intro h0; omega
    · intro i hi'
      rw [hR0]
      split
      · exact hrootfull
      · rw [if_neg (by omega)]; exact hs.full hpos i (by omega)
    · rw [hR0, if_pos rfl, ← hroot, ← hbuf]; exact ms_le _ _
  obtain ⟨idx', cur', upd', r1, r2, r3, r4, r5, r6, r7, r8⟩ :=
    siftLoop_spec (buf := buf) rows0 hn (by omega : h.heapSize - 1 + 1 < h.branchSize) hlen0 hrl0 hempty0
      (maxDepth h.branchSize) 0 root [] (by simp [maxDepth]) (by simp) (by simp) (by simp) (by simp)
      (by rw [hscat]; exact hSI) (by rw [hscat, hR0, if_pos rfl])
  have hdu : deleteUpdates h.branchSize rows0 root = some (upd' ++ [(idx', cur')]) := by
    unfold deleteUpdates
    rw [r1]
    simp only [Option.map_some]
    rw [List.take_of_length_le (by unfold maxDepth; omega)]
  refine ⟨{ h with heapSize := h.heapSize - 1, buffer := buf,
                   rows := scatterRows rows0 (upd' ++ [(idx', cur')]) }, ?_, ?_, rfl, rfl, rfl, by show buf.length = _; rw [← hbuf, ms_len2],
    ⟨_, hdu, r3⟩, ?_⟩
  · unfold deleteHeapify
    simp only [rowAt_of_lt hlast, hroot, hbuf, hinfrow, hrows0, hdu, Option.map_some]
  · refine ⟨hn, ⟨r4.len, r4.rowLen, r4.sorted, r4.heap, ?_, r5, fun _ => r6⟩, ?_, r7, ?_⟩
    · show h.heapSize - 1 < h.branchSize
      omega
    · rw [← hbuf]; exact ms_sorted2 _ _
    · left
      show h.bufferSize = nFinite buf
      rw [hbufcnt]
      rcases hi.bufSize with e | ⟨e, _⟩
      · exact e
      · omega
  · intro p
    unfold allPairs
    show ((scatterRows rows0 (upd' ++ [(idx', cur')])).flatten ++ buf).countP _ + _ = _
    rw [List.countP_append, List.countP_append, r8, hscat, ← hrows0]
    have e1 := count_set (fun x => p x && fin x) hl1 root
    have e2 := count_set (fun x => p x && fin x) hlast infr
    rw [R_set hlast, if_neg (by omega)] at e1
    have e3 := ms_count (R h.rows h.heapSize) h.buffer (fun x => p x && fin x)
    rw [hroot, hbuf] at e3
    have e4 : infr.countP (fun x => p x && fin x) = 0 := by
      rw [List.countP_eq_zero]; intro x hx; simp [hinf x hx]
    omega

/-- Everything about one `delete_mins`. -/
theorem any_delete_spec {h : Heap K V} (hi : LInv h) :
    ∃ h', deleteMins h = some (h', R h.rows 0) ∧ LInv h' ∧ h'.buffer.length = h.buffer.length ∧ h'.branchSize = h.branchSize ∧
      h'.batchSize = h.batchSize ∧
      (∀ p : K × V → Bool, (allPairs h').countP (fun x => p x && fin x) + (R h.rows 0).countP (fun x => p x && fin x)
        = (allPairs h).countP (fun x => p x && fin x)) ∧
      rowLe (R h.rows 0) (contents h') ∧ (¬ RowFull (R h.rows 0) → contents h' = []) := by
  have hn := hi.npos
  have hs := hi.store
  have hlen := hs.len
  have hlt := hs.hs_lt
  have hl0 : 0 < h.rows.length := by omega
  have main : ∃ h', deleteMins h = some (h', R h.rows 0) ∧ LInv h' ∧ h'.buffer.length = h.buffer.length ∧ h'.branchSize = h.branchSize ∧
      h'.batchSize = h.batchSize ∧
      (∀ p : K × V → Bool, (allPairs h').countP (fun x => p x && fin x) + (R h.rows 0).countP (fun x => p x && fin x)
        = (allPairs h).countP (fun x => p x && fin x)) := by
    by_cases h0 : h.heapSize = 0
    · -- make_empty
      generalize hinfrow : ((R h.rows 0).map fun p => ((KeyPad.inf : K), p.2)) = infr
      have hinf : RowInf infr := by rw [← hinfrow]; exact rowInf_map_inf _
      have hinflen : infr.length = h.batchSize := by
        rw [← hinfrow, List.length_map]; exact hs.rowLen 0 (by omega)
      generalize hroot : (mergeSplit infr h.buffer).1 = root
      generalize hbuf : (mergeSplit infr h.buffer).2 = buf
      have hff := ms_fin_first infr h.buffer
      rw [hroot, hbuf, rowInf_iff_count.1 hinf, hinflen] at hff
      refine ⟨{ h with rows := h.rows.set 0 root, buffer := buf, bufferSize := 0 }, ?_, ?_, by show buf.length = _; rw [← hbuf, ms_len2], rfl, rfl, ?_⟩
      · unfold deleteMins
        simp only [h0, if_true, rowAt_of_lt hl0, hinfrow, hroot, hbuf]
      · refine ⟨hn, ⟨by simp [hlen], ?_, ?_, ?_, hlt, ?_, ?_⟩, ?_, ?_, Or.inr ⟨h0, rfl⟩⟩
        · intro i hi'
          show (R (h.rows.set 0 root) i).length = _
          rw [R_set hl0]
          split
          · rw [← hroot, ms_len1]; exact hinflen
          · exact hs.rowLen i hi'
        · intro i hi'
          show RowSorted (R (h.rows.set 0 root) i)
          rw [R_set hl0]
          split
          · rw [← hroot]; exact ms_sorted1 _ _
          · exact hs.sorted i hi'
        · intro j hj hjB
          apply rowLe_inf
          show RowInf (R (h.rows.set 0 root) j)
          rw [R_set hl0, if_neg (by omega)]; exact hs.empty j (by omega) hjB
        · intro i h1 h2
          show RowInf (R (h.rows.set 0 root) i)
          rw [R_set hl0, if_neg (by omega)]; exact hs.empty i h1 h2
        · intro h1
          have h1' : 0 < h.heapSize := h1
          omega
        · show RowSorted buf
          rw [← hbuf]; exact ms_sorted2 _ _
        · show rowLe (R (h.rows.set 0 root) 0) buf
          rw [R_set hl0, if_pos rfl, ← hroot, ← hbuf]; exact ms_le _ _
      · intro p
        unfold allPairs
        show ((h.rows.set 0 root).flatten ++ buf).countP _ + _ = _
        rw [List.countP_append, List.countP_append]
        have e1 := count_set (fun x => p x && fin x) hl0 root
        have e3 := ms_count infr h.buffer (fun x => p x && fin x)
        rw [hroot, hbuf] at e3
        have e4 : infr.countP (fun x => p x && fin x) = 0 := by
          rw [List.countP_eq_zero]; intro x hx; simp [hinf x hx]
        omega
    · obtain ⟨h', d1, d2, d3, d4, _, dl, _, d6⟩ := any_deleteHeapify_spec hi (by omega)
      refine ⟨h', ?_, d2, dl, d3, d4, d6⟩
      unfold deleteMins
      simp only [h0, if_false, rowAt_of_lt hl0, d1, Option.map_some]
  obtain ⟨h', m1, m2, ml, m3, m4, m5⟩ := main
  have hle : rowLe (R h.rows 0) (contents h') := by
    intro x hx y hy
    cases hxy : KeyCmp.le x.1 y.1 with
    | true => rfl
    | false =>
      exfalso
      unfold contents at hy
      rw [List.mem_filter] at hy
      have hc := m5 (fun z => !KeyCmp.le x.1 z.1)
      have hpos : 0 < (allPairs h').countP (fun z => (!KeyCmp.le x.1 z.1) && fin z) :=
        List.countP_pos_iff.2 ⟨y, hy.1, by simp [hxy, hy.2]⟩
      have hz : (allPairs h).countP (fun z => (!KeyCmp.le x.1 z.1) && fin z) =
          (R h.rows 0).countP (fun z => (!KeyCmp.le x.1 z.1) && fin z) := by
        unfold allPairs
        rw [List.countP_append, count_flatten_zero _ hl0]
        · have : h.buffer.countP (fun z => (!KeyCmp.le x.1 z.1) && fin z) = 0 := by
            rw [List.countP_eq_zero]; intro z hz; simp [hi.bufGe x hx z hz]
          omega
        · intro i h1 h2
          rw [List.countP_eq_zero]; intro z hz
          simp [hs.shape.root_le hn i h1 (by omega) x hx z hz]
      omega
  refine ⟨h', m1, m2, ml, m3, m4, m5, hle, ?_⟩
  intro hnf
  have hex : ∃ x ∈ R h.rows 0, fin x = false := by
    false_or_by_contra
    rename_i hne
    apply hnf
    intro x hx
    cases hf : fin x with
    | true => rfl
    | false => exact absurd ⟨x, hx, hf⟩ hne
  obtain ⟨x, hx, hf⟩ := hex
  rw [List.eq_nil_iff_forall_not_mem]
  intro y hy
  have h1 := hle x hx y hy
  unfold contents at hy
  rw [List.mem_filter] at hy
  have := fin_of_le h1 hy.2
  rw [hf] at this; simp at this


/-- The number of finite keys in the heap, without the counter of the buffer. -/
theorem any_nFinite_all {h : Heap K V} (hi : LInv h) : nFinite (allPairs h) =
    (if h.heapSize = 0 then nFinite (R h.rows 0) else (h.heapSize + 1) * h.batchSize) +
      nFinite h.buffer := by
  unfold allPairs nFinite
  rw [List.countP_append, ← nFinite, ← nFinite, ← nFinite]
  congr 1
  have hs := hi.store
  have hl := hs.len
  have hlt := hs.hs_lt
  split
  · rename_i h0
    have := nFinite_flatten (nFinite (R h.rows 0)) h.rows 1 (by omega)
      (by intro i hi; have : i = 0 := by omega
          rw [this]) (by
        intro i h1 h2
        exact rowInf_iff_count.1 (hs.empty i (by omega) (by omega)))
    rw [this, Nat.one_mul]
  · rename_i h0
    exact nFinite_flatten h.batchSize h.rows (h.heapSize + 1) (by omega)
      (by intro i hi
          rw [rowFull_iff_count.1 (hs.full (by omega) i (by omega)), hs.rowLen i (by omega)])
      (by intro i h1 h2
          exact rowInf_iff_count.1 (hs.empty i (by omega) (by omega)))

/-- Queues reachable through the API when the blocks given to `insert` may have any length. -/
inductive AnyReachable (total batch : Nat) (dflt : V) : Heap K V → Prop
  | build : AnyReachable total batch dflt (build total batch dflt)
  | insert {h} (block) : AnyReachable total batch dflt h → AnyReachable total batch dflt (insert h block)
  | delete {h h' r} : AnyReachable total batch dflt h → deleteMins h = some (h', r) →
      AnyReachable total batch dflt h'

/-- Queues reachable when every block has at least `batch_size` entries. -/
inductive LongReachable (total batch : Nat) (dflt : V) : Heap K V → Prop
  | build : LongReachable total batch dflt (build total batch dflt)
  | insert {h block} : LongReachable total batch dflt h → batch ≤ block.length →
      LongReachable total batch dflt (insert h block)
  | delete {h h' r} : LongReachable total batch dflt h → deleteMins h = some (h', r) →
      LongReachable total batch dflt h'

theorem LongReachable.any {total batch : Nat} {dflt : V} {h : Heap K V}
    (hr : LongReachable total batch dflt h) : AnyReachable total batch dflt h := by
  induction hr with
  | build => exact .build
  | insert _ _ ih => exact .insert _ ih
  | delete _ hd ih => exact .delete ih hd

theorem any_inv {total batch : Nat} (ht : 0 < total) (hb : 0 < batch) {dflt : V} {h : Heap K V}
    (hr : AnyReachable total batch dflt h) :
    LInv h ∧ h.batchSize = batch ∧ h.branchSize = (build total batch dflt : Heap K V).branchSize := by
  induction hr with
  | build => exact ⟨(inv_build total batch hb ht dflt).toLInv, rfl, rfl⟩
  | @insert h block _ ih =>
    obtain ⟨i1, i2, i3⟩ := ih
    obtain ⟨_, s2, _, _, s3, s4, _⟩ := any_insert_spec i1 block
    exact ⟨s2, by omega, by omega⟩
  | @delete h h' r _ hd ih =>
    obtain ⟨i1, i2, i3⟩ := ih
    obtain ⟨h1, d1, s2, _, s3, s4, _⟩ := any_delete_spec i1
    rw [d1] at hd
    simp only [Option.some.injEq, Prod.mk.injEq] at hd
    obtain ⟨rfl, rfl⟩ := hd
    exact ⟨s2, by omega, by omega⟩

theorem long_buffer {total batch : Nat} (ht : 0 < total) (hb : 0 < batch) {dflt : V} {h : Heap K V}
    (hr : LongReachable total batch dflt h) : batch - 1 ≤ h.buffer.length := by
  induction hr with
  | build => simp [build]
  | @insert h block hr hl ih =>
    obtain ⟨i1, i2, _⟩ := any_inv ht hb hr.any
    obtain ⟨_, _, _, e, _⟩ := any_insert_spec i1 block
    omega
  | @delete h h' r hr hd ih =>
    obtain ⟨i1, i2, _⟩ := any_inv ht hb hr.any
    obtain ⟨h1, d1, _, e, _⟩ := any_delete_spec i1
    rw [d1] at hd
    simp only [Option.some.injEq, Prod.mk.injEq] at hd
    obtain ⟨rfl, rfl⟩ := hd
    omega

theorem length_items (l : List (K × V)) : (items l).length = nFinite l := by
  rw [items_eq, nFinite, List.countP_eq_length_filter]

/-- **C92**, the part that holds for blocks of every length: whatever blocks have been inserted,
`delete_mins` returns `batch_size` entries in key order, removes exactly their items, nothing smaller
stays behind, and a partly filled batch means that the queue is empty; an insert never makes up or
duplicates an item, and what it loses is not smaller than the items the next `delete_mins` returns. -/
theorem any_blocks_ordered {total batch : Nat} (ht : 0 < total) (hb : 0 < batch) {dflt : V}
    {h : Heap K V} (hr : AnyReachable total batch dflt h) :
    (∃ h' r, deleteMins h = some (h', r) ∧ r.length = batch ∧ SortedKeys r ∧
      (items r ++ contents h').Perm (contents h) ∧
      (∀ x ∈ r, ∀ y ∈ contents h', KeyCmp.le x.1 y.1 = true) ∧
      ((items r).length < batch → contents h' = [])) ∧
    (∀ block, ∃ lost h' r, (contents (insert h block) ++ lost).Perm (contents h ++ items block) ∧
      deleteMins (insert h block) = some (h', r) ∧ ∀ x ∈ r, ∀ y ∈ lost, KeyCmp.le x.1 y.1 = true) := by
  obtain ⟨i1, i2, _⟩ := any_inv ht hb hr
  have hlt := i1.store.hs_lt
  constructor
  · obtain ⟨h', d1, d2, _, d3, d4, d5, d6, d7⟩ := any_delete_spec i1
    refine ⟨h', _, d1, ?_, ?_, ?_, d6, ?_⟩
    · rw [i1.store.rowLen 0 (by omega), i2]
    · exact i1.store.sorted 0 (by omega)
    · apply perm_of_countP
      intro p
      rw [List.countP_append, countP_contents, countP_contents, countP_items]
      have := d5 p
      omega
    · intro hlt'
      apply d7
      intro hf
      rw [length_items, rowFull_iff_count.1 hf, i1.store.rowLen 0 (by omega), i2] at hlt'
      exact Nat.lt_irrefl _ hlt'
  · intro block
    obtain ⟨d, s1, _, _, _, _, s5, s6, _, _⟩ := any_insert_spec i1 block
    obtain ⟨h', d1, _⟩ := any_delete_spec s1
    refine ⟨items d, h', _, ?_, d1, ?_⟩
    · apply perm_of_countP
      intro p
      rw [List.countP_append, List.countP_append, countP_contents, countP_contents, countP_items,
        countP_items]
      exact s5 _
    · intro x hx y hy
      rw [items_eq, List.mem_filter] at hy
      exact s6 x hx y hy.1

/-- **C92**, the part that holds for blocks of `batch_size` entries or more: an insert into a queue that
has room for the items (`max_size + batch_size - 1` in all) stores exactly the block's items; otherwise it
loses at most one batch. -/
theorem long_blocks_conserve {total batch : Nat} (ht : 0 < total) (hb : 0 < batch) {dflt : V}
    {h : Heap K V} (hr : LongReachable total batch dflt h) (block : List (K × V))
    (hl : batch ≤ block.length) :
    ∃ lost, (contents (insert h block) ++ lost).Perm (contents h ++ items block) ∧
      lost.length ≤ batch ∧
      ((contents h).length + (items block).length < h.maxSize + batch → lost = []) := by
  obtain ⟨i1, i2, i3⟩ := any_inv ht hb hr.any
  have hbuf := long_buffer ht hb hr
  obtain ⟨d, s1, _, _, s3, s4, s5, s6, s7, s8⟩ := any_insert_spec i1 block
  have hcase : nFinite d = 0 ∨ ((insert h block).heapSize + 1 = h.branchSize ∧
      d.length = h.batchSize ∧ RowFull d) := by
    rcases s7 with e | ⟨e1, e2, e3, _⟩ | e
    · exact Or.inl e
    · exact Or.inr ⟨e1, e2, e3⟩
    · left
      have := (s8 e).2
      omega
  refine ⟨items d, ?_, ?_, ?_⟩
  · apply perm_of_countP
    intro p
    rw [List.countP_append, List.countP_append, countP_contents, countP_contents, countP_items,
      countP_items]
    exact s5 _
  · rw [length_items]
    rcases hcase with e | ⟨_, e, _⟩
    · omega
    · have : nFinite d ≤ d.length := List.countP_le_length
      omega
  · intro hroom
    rcases hcase with e | ⟨g1, g0, g2⟩
    · exact List.eq_nil_of_length_eq_zero (by rw [length_items]; exact e)
    · exfalso
      have hdne : d ≠ [] := by intro he; rw [he] at g0; simp at g0; omega
      obtain ⟨y, hy⟩ := List.exists_mem_of_ne_nil _ hdne
      have hrf : RowFull (R (insert h block).rows 0) := fun x hx => fin_of_le (s6 x hx y hy) (g2 y hy)
      have hall := any_nFinite_all s1
      have hrl := s1.store.rowLen 0 (by rw [s3]; have := i1.store.hs_lt; omega)
      have hge : h.maxSize ≤ nFinite (allPairs (insert h block)) := by
        rw [hall]
        unfold Heap.maxSize
        split
        · rename_i h0
          rw [h0] at g1
          rw [rowFull_iff_count.1 hrf, hrl, s4, ← g1]; omega
        · rw [g1, s4]; omega
      have hc := s5 fin
      have hdc := rowFull_iff_count.1 g2
      rw [contents_length, length_items] at hroom
      unfold nFinite at *
      omega

/-- `max_size` does not bound what the queue holds: of a block of any length at most `batch_size` items
are lost. -/
theorem long_blocks_exceed_max_size {total batch : Nat} (ht : 0 < total) (hb : 0 < batch) {dflt : V}
    {h : Heap K V} (hr : LongReachable total batch dflt h) (block : List (K × V))
    (hl : batch ≤ block.length) :
    (contents h).length + (items block).length ≤ (contents (insert h block)).length + batch := by
  obtain ⟨lost, h1, h2, _⟩ := long_blocks_conserve ht hb hr block hl
  have := h1.length_eq
  simp only [List.length_append] at this
  omega

/-- **C92**, `size` with blocks of any length: it never exceeds the number of items stored, is that number
right after every insert, and is 0 exactly when nothing is stored. -/
theorem any_blocks_size {total batch : Nat} (ht : 0 < total) (hb : 0 < batch) {dflt : V}
    {h : Heap K V} (hr : AnyReachable total batch dflt h) :
    ((contents h).length < 2 ^ 32 →
      h.size ≤ (contents h).length ∧ (h.size = 0 ↔ contents h = [])) ∧
    ∀ block, (contents (insert h block)).length < 2 ^ 32 →
      (insert h block).size = (contents (insert h block)).length := by
  have gen : ∀ g : Heap K V, LInv g → (contents g).length < 2 ^ 32 →
      g.size = (if g.heapSize = 0 then nFinite (R g.rows 0) else (g.heapSize + 1) * g.batchSize) +
        g.bufferSize := by
    intro g gi hc
    rw [contents_length, any_nFinite_all gi] at hc
    have hbs : g.bufferSize ≤ nFinite g.buffer := by
      rcases gi.bufSize with e | ⟨_, e⟩ <;> omega
    have hl := gi.store.len
    have hlt := gi.store.hs_lt
    unfold Heap.size
    rw [rowAt_of_lt (by omega)]
    split
    · rename_i h0
      rw [if_pos h0] at hc
      rw [show ((nFinite (R g.rows 0) : Int) + (g.bufferSize : Int)) =
        ((nFinite (R g.rows 0) + g.bufferSize : Nat) : Int) by simp, Jax.u32_of_lt (by omega)]
    · rename_i h0
      rw [if_neg h0] at hc
      rw [show (((g.heapSize : Int) + 1) * (g.batchSize : Int) + (g.bufferSize : Int)) =
        (((g.heapSize + 1) * g.batchSize + g.bufferSize : Nat) : Int) by simp, Jax.u32_of_lt (by omega)]
  obtain ⟨i1, i2, i3⟩ := any_inv ht hb hr
  have hlt := i1.store.hs_lt
  refine ⟨fun hc => ?_, fun block hc => ?_⟩
  · have hbs : h.bufferSize ≤ nFinite h.buffer := by
      rcases i1.bufSize with e | ⟨_, e⟩ <;> omega
    rw [gen h i1 hc]
    have hall := any_nFinite_all i1
    rw [← contents_length] at hall
    refine ⟨by omega, ?_, ?_⟩
    · intro hz
      apply List.eq_nil_of_length_eq_zero
      rw [hall]
      by_cases h0 : h.heapSize = 0
      · rw [if_pos h0] at hz ⊢
        have hri : nFinite (R h.rows 0) = 0 := by omega
        have hrl := i1.store.rowLen 0 (by omega)
        have hne : R h.rows 0 ≠ [] := by intro he; rw [he] at hrl; simp at hrl; omega
        obtain ⟨x, hx⟩ := List.exists_mem_of_ne_nil _ hne
        have hxi : fin x = false := rowInf_iff_count.2 hri x hx
        have : RowInf h.buffer := by
          intro y hy
          cases hf : fin y with
          | false => rfl
          | true =>
            have := fin_of_le (i1.bufGe x hx y hy) hf
            rw [hxi] at this; cases this
        rw [hri, rowInf_iff_count.1 this]
      · rw [if_neg h0] at hz
        have : 0 < (h.heapSize + 1) * h.batchSize := Nat.mul_pos (by omega) i1.npos
        omega
    · intro he
      rw [he] at hall
      simp only [List.length_nil] at hall
      omega
  · obtain ⟨d, s1, s2, _⟩ := any_insert_spec i1 block
    rw [gen _ s1 hc, contents_length, any_nFinite_all s1, s2]

/-- **C92**, draining with blocks of any length: calling `delete_mins` until `size` is 0 still returns
everything the queue stores, in key order, in `ceil(items / batch_size)` calls. -/
theorem any_blocks_drain {total batch : Nat} (ht : 0 < total) (hb : 0 < batch) {dflt : V}
    (fuel : Nat) {h : Heap K V} (hr : AnyReachable total batch dflt h)
    (hc : (contents h).length < 2 ^ 32) (hf : (contents h).length ≤ fuel * batch) :
    ∃ h' out, drain fuel h = some (h', out) ∧ h'.size = 0 ∧ contents h' = [] ∧ SortedKeys out ∧
      out.Perm (contents h) := by
  induction fuel generalizing h with
  | zero =>
    have h0 : contents h = [] := List.eq_nil_of_length_eq_zero (by omega)
    have hz := ((any_blocks_size ht hb hr).1 hc).2.2 h0
    exact ⟨h, [], rfl, hz, h0, by simp [SortedKeys], by rw [h0]⟩
  | succ fuel ih =>
    rw [drain]
    by_cases hz : h.size = 0
    · rw [if_pos hz]
      have h0 := ((any_blocks_size ht hb hr).1 hc).2.1 hz
      exact ⟨h, [], rfl, hz, h0, by simp [SortedKeys], by rw [h0]⟩
    · rw [if_neg hz]
      obtain ⟨h', r, d1, s1, s2, s3, s4, s5⟩ := (any_blocks_ordered ht hb hr).1
      have hlen := s3.length_eq
      rw [List.length_append] at hlen
      obtain ⟨h'', out, q1, q2, q2', q3, q4⟩ := ih (.delete hr d1) (by omega) (by
        by_cases hlt : (items r).length < batch
        · rw [s5 hlt]; simp
        · rw [Nat.succ_mul] at hf
          omega)
      refine ⟨h'', items r ++ out, by simp [d1, q1], q2, q2', ?_, ?_⟩
      · unfold SortedKeys
        rw [List.pairwise_append]
        refine ⟨List.Pairwise.filter _ s2, q3, ?_⟩
        intro x hx y hy
        rw [items_eq, List.mem_filter] at hx
        exact s4 x hx.1 y (q4.mem_iff.1 hy)
      · exact (q4.append_left (items r)).trans s3

/-- **C92 is false for blocks shorter than `batch_size`**, exactly: with `m` entries in the buffer array,
a block of `L`, and fewer than `batch_size` items outside the root after the merge (`over` of them), the
insert keeps only `L + m - batch_size` of those; the rest is lost without notice, however much room there
is. -/
theorem short_block_loss {total batch : Nat} (ht : 0 < total) (hb : 0 < batch) {dflt : V}
    {h : Heap K V} (hr : AnyReachable total batch dflt h) (block : List (K × V))
    {h' : Heap K V} {mins : List (K × V)} (hd : deleteMins h = some (h', mins)) :
    let over := ((items mins).length + (items block).length - batch) + (items h.buffer).length
    over < batch →
      (contents (insert h block)).length + (over - (block.length + h.buffer.length - batch)) =
        (contents h).length + (items block).length ∧
      (insert h block).buffer.length = block.length + h.buffer.length - batch := by
  intro over hover
  obtain ⟨i1, i2, _⟩ := any_inv ht hb hr
  obtain ⟨h1, d1, _⟩ := any_delete_spec i1
  rw [d1] at hd
  simp only [Option.some.injEq, Prod.mk.injEq] at hd
  obtain ⟨rfl, rfl⟩ := hd
  obtain ⟨d, _, _, s2, _, _, s5, _, _, s8⟩ := any_insert_spec i1 block
  simp only [over, length_items] at hover ⊢
  rw [i2] at s8 s2
  have e := (s8 hover).2
  have hc := s5 fin
  refine ⟨?_, s2⟩
  rw [contents_length, contents_length]
  unfold nFinite at *
  omega

/-- **C92 is false**: in every queue used so far as documented (blocks of `batch_size`) that holds at least
a batch and whose buffer is empty, inserting a block of `1 ≤ L < batch_size` items stores `L - 1` of them. -/
theorem short_block_loses_one {total batch : Nat} (ht : 0 < total) (hb : 0 < batch) {dflt : V}
    (hcap : (build total batch dflt : Heap K V).maxSize + batch ≤ 2 ^ 32)
    {h : Heap K V} (hr : Reachable total batch dflt h) (hfull : batch ≤ h.size) (hbe : h.bufferSize = 0)
    (block : List (K × V)) (h1 : 0 < block.length) (h2 : block.length < batch)
    (hfin : ∀ x ∈ block, KeyPad.isFin x.1 = true) :
    (contents (insert h block)).length + 1 = (contents h).length + block.length := by
  obtain ⟨i1, i2, i3⟩ := reachable_inv ht hb hcap hr
  have hlt := i1.store.hs_lt
  obtain ⟨d, _, _, _, _, _, s5, _, _, s8⟩ := any_insert_spec i1.toLInv block
  have hsz := size_eq i1 (by rw [i2, i3]; exact hcap)
  rw [contents_length] at hsz
  have hall := nFinite_all i1
  have hrl := i1.store.rowLen 0 (by omega)
  have hroot : nFinite (R h.rows 0) = batch := by
    have hle : nFinite (R h.rows 0) ≤ (R h.rows 0).length := List.countP_le_length
    by_cases h0 : h.heapSize = 0
    · rw [if_pos h0] at hall; omega
    · rw [rowFull_iff_count.1 (i1.store.full (by omega) 0 (by omega)), hrl, i2]
  have hblk : nFinite block = block.length := rowFull_iff_count.1 hfin
  have hb0 : nFinite h.buffer = 0 := by rw [← i1.bufSize]; exact hbe
  have hbl := i1.bufLen
  have e := (s8 (by omega)).2
  have hc := s5 fin
  rw [contents_length, contents_length]
  unfold nFinite at *
  omega

/-- **C92 is false**, later inserts: in an empty queue of any size, a block of `1 ≤ L < batch_size` items
followed by a full block of `batch_size` items leaves `L + batch_size - 1` items. -/
theorem short_then_full_loses_one {total batch : Nat} (ht : 0 < total) (hb : 0 < batch) {dflt : V}
    (short full : List (K × V)) (h1 : 0 < short.length) (h2 : short.length < batch)
    (h3 : full.length = batch)
    (hs : ∀ x ∈ short, KeyPad.isFin x.1 = true) (hf : ∀ x ∈ full, KeyPad.isFin x.1 = true) :
    let h := insert (build total batch dflt : Heap K V) short
    (contents h).length = short.length ∧
    (contents (insert h full)).length + 1 = short.length + batch := by
  intro h
  have hi0 := inv_build (K := K) total batch hb ht dflt
  have c0 := contents_build (K := K) total batch dflt
  have n0 : nFinite (allPairs (build total batch dflt : Heap K V)) = 0 := by
    rw [← contents_length, c0]; rfl
  have hsn : nFinite short = short.length := rowFull_iff_count.1 hs
  have hfn : nFinite full = full.length := rowFull_iff_count.1 hf
  have e0 := nFinite_all hi0
  have ehs : (build total batch dflt : Heap K V).heapSize = 0 := rfl
  have ebs : (build total batch dflt : Heap K V).batchSize = batch := rfl
  rw [if_pos ehs] at e0
  have hb0 := hi0.bufSize
  have hbl0 := hi0.bufLen
  obtain ⟨d, s1, s2, s3, _, s4, s5, _, s7, s8⟩ := any_insert_spec hi0.toLInv short
  obtain ⟨q1, q2⟩ := s8 (by omega)
  have hc := s5 fin
  have hh0 : h.heapSize = 0 := by show (insert _ _).heapSize = 0; rw [q1]; rfl
  have hbuf : h.buffer.length = short.length - 1 := by
    show (insert _ _).buffer.length = _; omega
  have hcnt : nFinite (allPairs h) = short.length := by
    show nFinite (allPairs (insert _ _)) = _
    unfold nFinite at *; omega
  have ha := any_nFinite_all (h := h) s1
  rw [if_pos hh0] at ha
  have hrl := s1.store.rowLen 0 (by have := s1.store.hs_lt; omega)
  -- all items sit in the root
  have hroot : nFinite (R h.rows 0) = short.length := by
    false_or_by_contra
    rename_i hne
    have hpos : 0 < nFinite h.buffer := by omega
    obtain ⟨y, hy, hyf⟩ := List.countP_pos_iff.1 (show 0 < h.buffer.countP fin from hpos)
    have := rowFull_iff_count.1 (fun x hx => fin_of_le (s1.bufGe x hx y hy) hyf : RowFull (R h.rows 0))
    have hrl' : (R h.rows 0).length = batch := by
      show (R (insert _ _).rows 0).length = _; rw [hrl, s4, ebs]
    omega
  have hbz : nFinite h.buffer = 0 := by omega
  refine ⟨by rw [contents_length]; exact hcnt, ?_⟩
  obtain ⟨d', _, _, _, _, _, s5', _, _, s8'⟩ := any_insert_spec (h := h) s1 full
  have ebs' : h.batchSize = batch := by show (insert _ _).batchSize = _; rw [s4]; rfl
  have q := (s8' (by omega)).2
  have hc' := s5' fin
  rw [contents_length]
  unfold nFinite at *
  omega

/-- **C92 is false for `size`** with blocks longer than `batch_size`: after inserting five items into a
queue with `batch_size` 1 and two `delete_mins`, three items are left and `size` is 1. -/
theorem long_block_size_false :
    ¬ ∀ (total batch : Nat) (h : Heap (Option Nat) Nat), LongReachable total batch 0 h →
      (contents h).length < 2 ^ 32 → h.size = (contents h).length := by
  intro hall
  have key : ∃ h : Heap (Option Nat) Nat, LongReachable 4 1 0 h ∧ (contents h).length = 3 ∧ h.size = 1 := by
    let b : Heap (Option Nat) Nat := insert (build 4 1 0)
      [(some 1, 1), (some 2, 2), (some 3, 3), (some 4, 4), (some 5, 5)]
    have hb : LongReachable 4 1 0 b := .insert .build (by decide)
    have e1 : ∃ p, deleteMins b = some p := Option.isSome_iff_exists.1 (by decide +kernel)
    obtain ⟨⟨h1, r1⟩, e1⟩ := e1
    have e2 : ∃ p, deleteMins h1 = some p := by
      apply Option.isSome_iff_exists.1
      have : ((deleteMins b).bind fun p => deleteMins p.1).isSome = true := by decide +kernel
      rw [e1] at this; exact this
    obtain ⟨⟨h2, r2⟩, e2⟩ := e2
    refine ⟨h2, .delete (.delete hb e1) e2, ?_⟩
    have : ((deleteMins b).bind fun p => (deleteMins p.1).map fun q =>
        ((contents q.1).length, q.1.size)) = some (3, 1) := by decide +kernel
    rw [e1] at this
    simp only [Option.bind_some] at this
    rw [e2] at this
    simp only [Option.map_some, Option.some.injEq, Prod.mk.injEq] at this
    exact this
  obtain ⟨h, h1, h2, h3⟩ := key
  have := hall 4 1 h h1 (by omega)
  omega

/-- Non-vacuity of `short_block_loses_one` and of `short_block_loss`: a queue of `batch_size` 3 holding
1, 2, 3, given the block 4, 5, keeps 1, 2, 3, 4 although `max_size` is 9. -/
example :
    let b : Heap (Option Nat) Nat := insert (build 9 3 0) [(some 3, 3), (some 1, 1), (some 2, 2)]
    Reachable 9 3 0 b ∧ 3 ≤ b.size ∧ b.bufferSize = 0 ∧ b.maxSize = 9 ∧
      contents (insert b [(some 5, 5), (some 4, 4)]) = [(some 1, 1), (some 2, 2), (some 3, 3), (some 4, 4)] := by
  intro b
  exact ⟨.insert .build (by decide), by decide +kernel, by decide +kernel, by decide +kernel,
    by decide +kernel⟩

/-- Non-vacuity of `long_blocks_conserve` and `long_blocks_exceed_max_size`: seven items given in
one block to a queue with `batch_size` 2 and `max_size` 2. -/
example :
    let b : Heap (Option Nat) Nat := insert (build 2 2 0)
      [(some 7, 7), (some 1, 1), (some 2, 2), (some 6, 6), (some 3, 3), (some 4, 4), (some 5, 5)]
    LongReachable 2 2 0 b ∧ b.maxSize = 2 ∧ b.size = 5 ∧
      contents b = [(some 1, 1), (some 2, 2), (some 5, 5), (some 6, 6), (some 7, 7)] := by
  intro b
  exact ⟨.insert .build (by decide), by decide +kernel, by decide +kernel, by decide +kernel⟩

/-- Non-vacuity of `short_then_full_loses_one`. -/
example :
    let h : Heap (Option Nat) Nat := insert (build 9 3 0) [(some 3, 3)]
    contents (insert h [(some 5, 5), (some 4, 4), (some 1, 1)]) =
      [(some 1, 1), (some 3, 3), (some 4, 4)] := by
  decide +kernel

end Bgpq
