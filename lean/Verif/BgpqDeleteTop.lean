import Verif.BgpqDelete

set_option linter.unusedSectionVars false

namespace Bgpq

open MergeModel

variable {K : Type u} [KeyInf K] {V : Type v}

theorem scatterRows_root (rows : List (List (K × V))) (r : List (K × V)) (h : 0 < rows.length) :
    scatterRows rows ([] ++ [(0, r)]) = rows.set 0 r := by
  rw [List.nil_append, scatterRows_cons _ _ _ h]; rfl

/-- Everything about the sift-down branch of `delete_mins`. -/
theorem deleteHeapify_spec {h : Heap K V} (hi : Inv h) (hpos : 0 < h.heapSize) :
    ∃ h', deleteHeapify h = some h' ∧ Inv h' ∧ h'.branchSize = h.branchSize ∧
      h'.batchSize = h.batchSize ∧ h'.heapSize = h.heapSize - 1 ∧
      (∃ upd, deleteUpdates h.branchSize
          ((h.rows.set h.heapSize ((R h.rows h.heapSize).map fun p => (KeyPad.inf, p.2))).set 0
            (mergeSplit (R h.rows h.heapSize) h.buffer).1)
          (mergeSplit (R h.rows h.heapSize) h.buffer).1 = some upd ∧ (upd.map Prod.fst).Nodup) ∧
      ∀ p : K × V → Bool, (allPairs h').countP (fun x => p x && fin x) + (R h.rows 0).countP (fun x => p x && fin x)
        = (allPairs h).countP (fun x => p x && fin x) := by
  have hn := hi.npos
  have hs := hi.store
  have hlen := hs.len
  have hlt := hs.hs_lt
  have hlast : h.heapSize < h.rows.length := by omega
  have hlastfull : RowFull (R h.rows h.heapSize) := hs.full hpos _ (Nat.le_refl _)
  have hlastlen : (R h.rows h.heapSize).length = h.batchSize := hs.rowLen _ hlt
  generalize hroot : (mergeSplit (R h.rows h.heapSize) h.buffer).1 = root at *
  generalize hbuf : (mergeSplit (R h.rows h.heapSize) h.buffer).2 = buf at *
  generalize hinfrow : ((R h.rows h.heapSize).map fun p => ((KeyPad.inf : K), p.2)) = infr at *
  have hinf : RowInf infr := by rw [← hinfrow]; exact rowInf_map_inf _
  have hinflen : infr.length = h.batchSize := by rw [← hinfrow, List.length_map]; exact hlastlen
  have hrootlen : root.length = h.batchSize := by rw [← hroot, ms_len1]; exact hlastlen
  have hbuflen : buf.length = h.batchSize - 1 := by rw [← hbuf, ms_len2]; exact hi.bufLen
  have hff := ms_fin_first (R h.rows h.heapSize) h.buffer
  rw [hroot, hbuf, rowFull_iff_count.1 hlastfull, hlastlen] at hff
  have hrootfull : RowFull root := by rw [rowFull_iff_count, hrootlen]; omega
  have hbufcnt : nFinite buf = nFinite h.buffer := by omega
  generalize hrows0 : (h.rows.set h.heapSize infr).set 0 root = rows0 at *
  have hl1 : 0 < (h.rows.set h.heapSize infr).length := by simp; omega
  have hR0 : ∀ j, R rows0 j = if j = 0 then root else if j = h.heapSize then infr else R h.rows j := by
    intro j
    rw [← hrows0, R_set hl1, R_set hlast]
  have hlen0 : rows0.length = h.branchSize := by rw [← hrows0]; simp [hlen]
  have hempty0 : ∀ i, h.heapSize - 1 < i → i < h.branchSize → RowInf (R rows0 i) := by
    intro i h1 h2
    rw [hR0, if_neg (by omega)]
    split
    · exact hinf
    · exact hs.empty i (by omega) h2
  have hrl0 : ∀ i, i < h.branchSize → (R rows0 i).length = h.batchSize := by
    intro i hi'
    rw [hR0]
    split
    · exact hrootlen
    · split
      · exact hinflen
      · exact hs.rowLen i hi'
  have hscat : scatterRows rows0 ([] ++ [(0, root)]) = rows0 := by
    rw [scatterRows_root _ _ (by omega), ← hrows0, List.set_set]
  have hSI : SInv h.batchSize h.branchSize (h.heapSize - 1) buf rows0 0 := by
    refine ⟨hlen0, by omega, hrl0, ?_, ?_, ?_, hempty0, ?_, ?_⟩
    · intro i hi'
      rw [hR0]
      split
      · rw [← hroot]; exact ms_sorted1 _ _
      · split
        · exact rowSorted_of_inf hinf
        · exact hs.sorted i hi'
    · intro j hj hjB hp
      by_cases hjl : h.heapSize - 1 < j
      · exact rowLe_inf (hempty0 j hjl hjB)
      · rw [hR0, hR0, if_neg hp, if_neg (by omega), if_neg (by omega), if_neg (by omega)]
        exact hs.heap j hj hjB
    · intro h0; omega
    · intro i hi'
      rw [hR0]
      split
      · exact hrootfull
      · rw [if_neg (by omega)]; exact hs.full hpos i (by omega)
    · rw [hR0, if_pos rfl, ← hroot, ← hbuf]; exact ms_le _ _
  obtain ⟨idx', cur', upd', r1, r2, r3, r4, r5, r6, r7, r8⟩ :=
    siftLoop_spec (buf := buf) rows0 hn (by omega : h.heapSize - 1 + 1 < h.branchSize) hlen0 hrl0 hempty0
      (maxDepth h.branchSize) 0 root [] (by simp [maxDepth]) (by simp) (by simp) (by simp) (by simp)
      (by rw [hscat]; exact hSI) (by rw [hscat, hR0, if_pos rfl])
  have hdu : deleteUpdates h.branchSize rows0 root = some (upd' ++ [(idx', cur')]) := by
    unfold deleteUpdates
    rw [r1]
    simp only [Option.map_some]
    rw [List.take_of_length_le (by unfold maxDepth; omega)]
  refine ⟨{ h with heapSize := h.heapSize - 1, buffer := buf,
                   rows := scatterRows rows0 (upd' ++ [(idx', cur')]) }, ?_, ?_, rfl, rfl, rfl,
    ⟨_, hdu, r3⟩, ?_⟩
  · unfold deleteHeapify
    simp only [rowAt_of_lt hlast, hroot, hbuf, hinfrow, hrows0, hdu, Option.map_some]
  · refine ⟨hn, ⟨r4.len, r4.rowLen, r4.sorted, r4.heap, ?_, r5, fun _ => r6⟩, hbuflen, ?_, r7, ?_⟩
    · show h.heapSize - 1 < h.branchSize
      omega
    · rw [← hbuf]; exact ms_sorted2 _ _
    · show h.bufferSize = nFinite buf
      rw [hbufcnt]; exact hi.bufSize
  · intro p
    unfold allPairs
    show ((scatterRows rows0 (upd' ++ [(idx', cur')])).flatten ++ buf).countP _ + _ = _
    rw [List.countP_append, List.countP_append, r8, hscat, ← hrows0]
    have e1 := count_set (fun x => p x && fin x) hl1 root
    have e2 := count_set (fun x => p x && fin x) hlast infr
    rw [R_set hlast, if_neg (by omega)] at e1
    have e3 := ms_count (R h.rows h.heapSize) h.buffer (fun x => p x && fin x)
    rw [hroot, hbuf] at e3
    have e4 : infr.countP (fun x => p x && fin x) = 0 := by
      rw [List.countP_eq_zero]; intro x hx; simp [hinf x hx]
    omega

theorem count_flatten_zero (p : K × V → Bool) {rows : List (List (K × V))} (h : 0 < rows.length)
    (h0 : ∀ i, 0 < i → i < rows.length → (R rows i).countP p = 0) :
    rows.flatten.countP p = (R rows 0).countP p := by
  cases rows with
  | nil => simp at h
  | cons r rs =>
    have hR : R (r :: rs) 0 = r := by simp [R]
    rw [List.flatten_cons, List.countP_append, hR]
    have : rs.flatten.countP p = 0 := by
      rw [List.countP_eq_zero]
      intro x hx
      rw [List.mem_flatten] at hx
      obtain ⟨l, hl, hxl⟩ := hx
      obtain ⟨i, hi, hli⟩ := List.mem_iff_getElem.1 hl
      have := h0 (i + 1) (by omega) (by simpa using hi)
      have e : R (r :: rs) (i + 1) = l := by simp [R, List.getElem?_eq_getElem hi, hli]
      rw [e, List.countP_eq_zero] at this
      exact this x hxl
    omega

/-- Everything about one `delete_mins`. -/
theorem delete_spec {h : Heap K V} (hi : Inv h) :
    ∃ h', deleteMins h = some (h', R h.rows 0) ∧ Inv h' ∧ h'.branchSize = h.branchSize ∧
      h'.batchSize = h.batchSize ∧
      (∀ p : K × V → Bool, (allPairs h').countP (fun x => p x && fin x) + (R h.rows 0).countP (fun x => p x && fin x)
        = (allPairs h).countP (fun x => p x && fin x)) ∧
      rowLe (R h.rows 0) (contents h') ∧ (¬ RowFull (R h.rows 0) → contents h' = []) := by
  have hn := hi.npos
  have hs := hi.store
  have hlen := hs.len
  have hlt := hs.hs_lt
  have hl0 : 0 < h.rows.length := by omega
  have main : ∃ h', deleteMins h = some (h', R h.rows 0) ∧ Inv h' ∧ h'.branchSize = h.branchSize ∧
      h'.batchSize = h.batchSize ∧
      (∀ p : K × V → Bool, (allPairs h').countP (fun x => p x && fin x) + (R h.rows 0).countP (fun x => p x && fin x)
        = (allPairs h).countP (fun x => p x && fin x)) := by
    by_cases h0 : h.heapSize = 0
    · -- make_empty
      generalize hinfrow : ((R h.rows 0).map fun p => ((KeyPad.inf : K), p.2)) = infr
      have hinf : RowInf infr := by rw [← hinfrow]; exact rowInf_map_inf _
      have hinflen : infr.length = h.batchSize := by
        rw [← hinfrow, List.length_map]; exact hs.rowLen 0 (by omega)
      generalize hroot : (mergeSplit infr h.buffer).1 = root
      generalize hbuf : (mergeSplit infr h.buffer).2 = buf
      have hff := ms_fin_first infr h.buffer
      rw [hroot, hbuf, rowInf_iff_count.1 hinf, hinflen] at hff
      have hble : nFinite h.buffer ≤ h.buffer.length := List.countP_le_length
      rw [hi.bufLen] at hble
      have hbufinf : RowInf buf := by rw [rowInf_iff_count]; omega
      refine ⟨{ h with rows := h.rows.set 0 root, buffer := buf, bufferSize := 0 }, ?_, ?_, rfl, rfl, ?_⟩
      · unfold deleteMins
        simp only [h0, if_true, rowAt_of_lt hl0, hinfrow, hroot, hbuf]
      · refine ⟨hn, ⟨by simp [hlen], ?_, ?_, ?_, hlt, ?_, ?_⟩, ?_, ?_, rowLe_inf hbufinf, ?_⟩
        · intro i hi'
          show (R (h.rows.set 0 root) i).length = _
          rw [R_set hl0]
          split
          · rw [← hroot, ms_len1]; exact hinflen
          · exact hs.rowLen i hi'
        · intro i hi'
          show RowSorted (R (h.rows.set 0 root) i)
          rw [R_set hl0]
          split
          · rw [← hroot]; exact ms_sorted1 _ _
          · exact hs.sorted i hi'
        · intro j hj hjB
          apply rowLe_inf
          show RowInf (R (h.rows.set 0 root) j)
          rw [R_set hl0, if_neg (by omega)]; exact hs.empty j (by omega) hjB
        · intro i h1 h2
          show RowInf (R (h.rows.set 0 root) i)
          rw [R_set hl0, if_neg (by omega)]; exact hs.empty i h1 h2
        · intro h1
          have h1' : 0 < h.heapSize := h1
          omega
        · show buf.length = h.batchSize - 1
          rw [← hbuf, ms_len2]; exact hi.bufLen
        · exact rowSorted_of_inf hbufinf
        · exact (rowInf_iff_count.1 hbufinf).symm
      · intro p
        unfold allPairs
        show ((h.rows.set 0 root).flatten ++ buf).countP _ + _ = _
        rw [List.countP_append, List.countP_append]
        have e1 := count_set (fun x => p x && fin x) hl0 root
        have e3 := ms_count infr h.buffer (fun x => p x && fin x)
        rw [hroot, hbuf] at e3
        have e4 : infr.countP (fun x => p x && fin x) = 0 := by
          rw [List.countP_eq_zero]; intro x hx; simp [hinf x hx]
        omega
    · obtain ⟨h', d1, d2, d3, d4, _, _, d6⟩ := deleteHeapify_spec hi (by omega)
      refine ⟨h', ?_, d2, d3, d4, d6⟩
      unfold deleteMins
      simp only [h0, if_false, rowAt_of_lt hl0, d1, Option.map_some]
  obtain ⟨h', m1, m2, m3, m4, m5⟩ := main
  have hle : rowLe (R h.rows 0) (contents h') := by
    intro x hx y hy
    cases hxy : KeyCmp.le x.1 y.1 with
    | true => rfl
    | false =>
      exfalso
      unfold contents at hy
      rw [List.mem_filter] at hy
      have hc := m5 (fun z => !KeyCmp.le x.1 z.1)
      have hpos : 0 < (allPairs h').countP (fun z => (!KeyCmp.le x.1 z.1) && fin z) :=
        List.countP_pos_iff.2 ⟨y, hy.1, by simp [hxy, hy.2]⟩
      have hz : (allPairs h).countP (fun z => (!KeyCmp.le x.1 z.1) && fin z) =
          (R h.rows 0).countP (fun z => (!KeyCmp.le x.1 z.1) && fin z) := by
        unfold allPairs
        rw [List.countP_append, count_flatten_zero _ hl0]
        · have : h.buffer.countP (fun z => (!KeyCmp.le x.1 z.1) && fin z) = 0 := by
            rw [List.countP_eq_zero]; intro z hz; simp [hi.bufGe x hx z hz]
          omega
        · intro i h1 h2
          rw [List.countP_eq_zero]; intro z hz
          simp [hs.shape.root_le hn i h1 (by omega) x hx z hz]
      omega
  refine ⟨h', m1, m2, m3, m4, m5, hle, ?_⟩
  intro hnf
  have hex : ∃ x ∈ R h.rows 0, fin x = false := by
    false_or_by_contra
    rename_i hne
    apply hnf
    intro x hx
    cases hf : fin x with
    | true => rfl
    | false => exact absurd ⟨x, hx, hf⟩ hne
  obtain ⟨x, hx, hf⟩ := hex
  rw [List.eq_nil_iff_forall_not_mem]
  intro y hy
  have h1 := hle x hx y hy
  unfold contents at hy
  rw [List.mem_filter] at hy
  have := fin_of_le h1 hy.2
  rw [hf] at this; simp at this

end Bgpq
