import Verif.BgpqInsert

set_option linter.unusedSectionVars false

namespace Bgpq

open MergeModel

variable {K : Type u} [KeyInf K] {V : Type v}

theorem nFinite_flatten (n : Nat) (rows : List (List (K × V))) (m : Nat) (hm : m ≤ rows.length)
    (h1 : ∀ i, i < m → nFinite (R rows i) = n)
    (h2 : ∀ i, m ≤ i → i < rows.length → nFinite (R rows i) = 0) :
    nFinite rows.flatten = m * n := by
  induction rows generalizing m with
  | nil => simp at hm; subst hm; simp [nFinite]
  | cons r rs ih =>
    have hR : ∀ i, R (r :: rs) (i + 1) = R rs i := fun i => by simp [R]
    have hR0 : R (r :: rs) 0 = r := by simp [R]
    unfold nFinite at *
    rw [List.flatten_cons, List.countP_append]
    cases m with
    | zero =>
      have := h2 0 (by omega) (by simp)
      rw [hR0] at this
      rw [this, ih 0 (by omega) (by intro i hi; omega) (by
        intro i _ hi
        have := h2 (i + 1) (by omega) (by simpa using hi)
        rwa [hR] at this)]
      simp
    | succ m =>
      have := h1 0 (by omega)
      rw [hR0] at this
      rw [this, ih m (by simpa using hm) (by
        intro i hi
        have := h1 (i + 1) (by omega)
        rwa [hR] at this) (by
        intro i h hi
        have := h2 (i + 1) (by omega) (by simpa using hi)
        rwa [hR] at this), Nat.succ_mul, Nat.add_comm]

/-- The number of finite keys in the heap, from its counters. -/
theorem nFinite_all {h : Heap K V} (hi : Inv h) : nFinite (allPairs h) =
    (if h.heapSize = 0 then nFinite (R h.rows 0) else (h.heapSize + 1) * h.batchSize) + h.bufferSize := by
  unfold allPairs nFinite
  rw [List.countP_append, ← nFinite, ← nFinite, ← nFinite, ← hi.bufSize]
  congr 1
  have hs := hi.store
  have hl := hs.len
  have hlt := hs.hs_lt
  split
  · rename_i h0
    have := nFinite_flatten (nFinite (R h.rows 0)) h.rows 1 (by omega)
      (by intro i hi; have : i = 0 := by omega
          rw [this]) (by
        intro i h1 h2
        exact rowInf_iff_count.1 (hs.empty i (by omega) (by omega)))
    rw [this, Nat.one_mul]
  · rename_i h0
    exact nFinite_flatten h.batchSize h.rows (h.heapSize + 1) (by omega)
      (by intro i hi
          rw [rowFull_iff_count.1 (hs.full (by omega) i (by omega)), hs.rowLen i (by omega)])
      (by intro i h1 h2
          exact rowInf_iff_count.1 (hs.empty i (by omega) (by omega)))

/-- Everything about one `insert`. -/
theorem insert_spec {h : Heap K V} (hi : Inv h) {block : List (K × V)}
    (hbl : block.length = h.batchSize) :
    ∃ d : List (K × V), d.length = h.batchSize ∧ Inv (insert h block) ∧
      (insert h block).branchSize = h.branchSize ∧ (insert h block).batchSize = h.batchSize ∧
      (∀ p, (allPairs (insert h block)).countP p + d.countP p
        = (allPairs h).countP p + block.countP p) ∧
      rowLe (R (insert h block).rows 0) d ∧
      (RowInf d ∨ ((insert h block).heapSize + 1 = h.branchSize ∧ RowFull d ∧
        ∃ z ∈ d, ∀ x ∈ (insert h block).rows.flatten, KeyCmp.le x.1 z.1 = true)) := by
  have hn := hi.npos
  have hs := hi.store
  have hlen := hs.len
  have hlt := hs.hs_lt
  have hl0 : 0 < h.rows.length := by omega
  have hbuf := hi.bufLen
  -- the root merge
  generalize hb' : sortKeyVal block = b'
  have hb'l : b'.length = h.batchSize := by rw [← hb', ← hbl]; exact (sortKeyVal_perm block).length_eq
  have hb'c : ∀ p, b'.countP p = block.countP p := fun p => by
    rw [← hb']; exact (sortKeyVal_perm block).countP_eq p
  generalize hroot : (mergeSplit (R h.rows 0) b').1 = root
  generalize hrest : (mergeSplit (R h.rows 0) b').2 = rest
  have hrl : (R h.rows 0).length = h.batchSize := hs.rowLen 0 (by omega)
  have hrootlen : root.length = h.batchSize := by rw [← hroot, ms_len1]; exact hrl
  have hrestlen : rest.length = h.batchSize := by rw [← hrest, ms_len2]; exact hb'l
  have hcnt1 : ∀ p, root.countP p + rest.countP p = (R h.rows 0).countP p + block.countP p := by
    intro p; rw [← hroot, ← hrest, ms_count, hb'c]
  have hle1 : rowLe root rest := by rw [← hroot, ← hrest]; exact ms_le _ _
  have hle2 : rowLe root h.buffer := by rw [← hroot]; exact ms_lo_le_of_left _ _ hi.bufGe
  have hR0 : R (h.rows.set 0 root) 0 = root := by rw [R_set hl0, if_pos rfl]
  have hs1 : StoreInv h.batchSize h.branchSize h.heapSize (h.rows.set 0 root) := by
    have hsh := hs.shape.step (i := 0) (c := b') (by omega) (by omega)
    rw [hroot] at hsh
    refine ⟨hsh.len, hsh.rowLen, hsh.sorted, hsh.heap, hlt, ?_, ?_⟩
    · intro i h1 h2
      rw [R_set hl0, if_neg (by omega)]; exact hs.empty i h1 h2
    · intro h0 i h1
      rw [R_set hl0]
      split
      · rw [rowFull_iff_count, hrootlen, ← hroot, (ms_fin_first _ _).1, hrl,
          rowFull_iff_count.1 (hs.full h0 0 (by omega)), hrl]
        omega
      · exact hs.full h0 i h1
  -- the buffer merge
  generalize hsrt : sortKeyVal (rest ++ h.buffer) = s
  have hslen : s.length = h.batchSize + (h.batchSize - 1) := by
    rw [← hsrt, (sortKeyVal_perm _).length_eq, List.length_append, hrestlen, hbuf]
  have hscnt : ∀ p, s.countP p = rest.countP p + h.buffer.countP p := by
    intro p; rw [← hsrt, (sortKeyVal_perm _).countP_eq, List.countP_append]
  have hsmem : ∀ x ∈ s, x ∈ rest ∨ x ∈ h.buffer := by
    intro x hx; rw [← hsrt] at hx
    exact List.mem_append.1 ((sortKeyVal_perm _).mem_iff.1 hx)
  have hssorted : RowSorted s := by rw [← hsrt]; exact sortKeyVal_sorted _
  have hle3 : rowLe root s := by
    intro x hx y hy
    rcases hsmem y hy with h' | h'
    · exact hle1 x hx y h'
    · exact hle2 x hx y h'
  by_cases hov : nFinite s ≥ h.batchSize
  · -- buffer overflow
    let h1 : Heap K V := { h with rows := h.rows.set 0 root, buffer := s.drop h.batchSize, bufferSize := nFinite (s.drop h.batchSize) }
    have hmb : mergeBuffer { h with rows := h.rows.set 0 root } rest = (h1, s.take h.batchSize, true) := by
      simp only [mergeBuffer, hsrt, hov, decide_true, if_true, h1]
    have hins : insert h block = { (insertHeapify h1 (s.take h.batchSize)).1 with
        heapSize := (insertHeapify h1 (s.take h.batchSize)).1.heapSize +
          (if (insertHeapify h1 (s.take h.batchSize)).2 then 1 else 0) } := by
      unfold insert
      simp only [rowAt_of_lt hl0, hb', hroot, hrest, hmb, if_true]
    have hcl : (s.take h.batchSize).length = h.batchSize := by simp [hslen]
    have hms : mergeSplit rest h.buffer = (s.take h.batchSize, s.drop h.batchSize) := by
      simp [mergeSplit, hsrt, hrestlen]
    have hcf : RowFull (s.take h.batchSize) := by
      rw [rowFull_iff_count, hcl]
      have := (ms_fin_first rest h.buffer).1
      rw [hms] at this
      rw [this, hrestlen]
      have := hscnt fin
      unfold nFinite at *
      omega
    have hrf : RowFull root := by
      have hne : s.take h.batchSize ≠ [] := by
        intro he; rw [he] at hcl; simp at hcl; omega
      obtain ⟨y, hy⟩ := List.exists_mem_of_ne_nil _ hne
      intro x hx
      exact fin_of_le (hle3 x hx y (List.mem_of_mem_take hy)) (hcf y hy)
    obtain ⟨d, d1, d2, d3, d4, d5, d6, d7⟩ := insertHeapify_spec (h := h1) hn hs1
      (by show RowFull (R (h.rows.set 0 root) 0); rw [hR0]; exact hrf) hcl hcf
      (by show rowLe (R (h.rows.set 0 root) 0) _; rw [hR0]
          intro x hx y hy; exact hle3 x hx y (List.mem_of_mem_take hy))
    rw [hins]
    generalize hres : insertHeapify h1 (s.take h.batchSize) = res at *
    obtain ⟨hh, added⟩ := res
    dsimp only at *
    rw [d3]
    refine ⟨d, d1, ⟨hn, d2, ?_, ?_, ?_, rfl⟩, rfl, rfl, ?_, d6, ?_⟩
    · show (s.drop h.batchSize).length = h.batchSize - 1
      rw [List.length_drop, hslen]; omega
    · exact (List.Pairwise.sublist (List.drop_sublist _ _) hssorted)
    · show rowLe (R hh.rows 0) (s.drop h.batchSize)
      apply d5
      show rowLe (R (h.rows.set 0 root) 0) _
      rw [hR0]
      intro x hx y hy; exact hle3 x hx y (List.mem_of_mem_drop hy)
    · intro p
      unfold allPairs
      show (hh.rows.flatten ++ s.drop h.batchSize).countP p + d.countP p = _
      rw [List.countP_append, List.countP_append]
      have e1 := d4 p
      have e2 := count_set p hl0 root
      have e3 := hcnt1 p
      have e4 := hscnt p
      have e5 : (s.take h.batchSize).countP p + (s.drop h.batchSize).countP p = s.countP p := by
        rw [← List.countP_append, List.take_append_drop]
      have e6 : h1.rows = h.rows.set 0 root := rfl
      rw [e6] at e1
      omega
    · rcases d7 with hd | ⟨g1, g2, g3⟩
      · exact Or.inl hd
      · refine Or.inr ⟨?_, g2, g3⟩
        have hlt' := d2.hs_lt
        have e1 : h1.heapSize = h.heapSize := rfl
        have e2 : h1.branchSize = h.branchSize := rfl
        rw [e1, e2] at *
        show h.heapSize + _ + 1 = _
        omega
  · -- no overflow
    have hsub : s.length - h.batchSize = h.batchSize - 1 := by omega
    have hmb : mergeBuffer { h with rows := h.rows.set 0 root } rest =
        ({ h with rows := h.rows.set 0 root, buffer := s.take (h.batchSize - 1), bufferSize := nFinite (s.take (h.batchSize - 1)) },
         s.drop (h.batchSize - 1), false) := by
      simp only [mergeBuffer, hsrt, hov, decide_false, if_false, Bool.false_eq_true, hsub]
    have hins : insert h block = { h with rows := h.rows.set 0 root, buffer := s.take (h.batchSize - 1), bufferSize := nFinite (s.take (h.batchSize - 1)) } := by
      unfold insert
      simp only [rowAt_of_lt hl0, hb', hroot, hrest, hmb, Bool.false_eq_true, if_false, Nat.add_zero]
    have htl : (s.take (h.batchSize - 1)).length = h.batchSize - 1 := by simp [hslen]
    have hinf : RowInf (s.drop (h.batchSize - 1)) := by
      intro y hy
      cases hf : fin y with
      | false => rfl
      | true =>
        exfalso
        have hsp := hssorted
        unfold RowSorted at hsp
        rw [← List.take_append_drop (h.batchSize - 1) s] at hsp
        have hall : RowFull (s.take (h.batchSize - 1)) := fun x hx =>
          fin_of_le ((List.pairwise_append.1 hsp).2.2 x hx y hy) hf
        have c1 := rowFull_iff_count.1 hall
        have c2 : 0 < (s.drop (h.batchSize - 1)).countP fin := List.countP_pos_iff.2 ⟨y, hy, hf⟩
        have c3 : (s.take (h.batchSize - 1)).countP fin + (s.drop (h.batchSize - 1)).countP fin = s.countP fin := by
          rw [← List.countP_append, List.take_append_drop]
        unfold nFinite at *
        omega
    rw [hins]
    refine ⟨s.drop (h.batchSize - 1), ?_, ⟨hn, hs1, htl, ?_, ?_, rfl⟩, rfl, rfl, ?_, rowLe_inf hinf, Or.inl hinf⟩
    · rw [List.length_drop, hslen]; omega
    · exact (List.Pairwise.sublist (List.take_sublist _ _) hssorted)
    · show rowLe (R (h.rows.set 0 root) 0) _
      rw [hR0]
      intro x hx y hy; exact hle3 x hx y (List.mem_of_mem_take hy)
    · intro p
      unfold allPairs
      show ((h.rows.set 0 root).flatten ++ s.take (h.batchSize - 1)).countP p + _ = _
      rw [List.countP_append, List.countP_append]
      have e2 := count_set p hl0 root
      have e3 := hcnt1 p
      have e4 := hscnt p
      have e5 : (s.take (h.batchSize - 1)).countP p + (s.drop (h.batchSize - 1)).countP p = s.countP p := by
        rw [← List.countP_append, List.take_append_drop]
      omega

end Bgpq
