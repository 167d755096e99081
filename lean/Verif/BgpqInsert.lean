import Verif.BgpqLemmas

/-!
# Insertion into a BGPQ preserves the invariant and the contents
-/

set_option linter.unusedSectionVars false

namespace Bgpq

open MergeModel

variable {K : Type u} [KeyInf K] {V : Type v}

/-- Shape, sortedness and heap order of the store (the part independent of `heap_size`). -/
structure Shape (n B : Nat) (rows : List (List (K × V))) : Prop where
  len : rows.length = B
  rowLen : ∀ i, i < B → (R rows i).length = n
  sorted : ∀ i, i < B → RowSorted (R rows i)
  heap : ∀ j, 0 < j → j < B → rowLe (R rows ((j - 1) / 2)) (R rows j)

theorem StoreInv.shape {n B hs : Nat} {rows : List (List (K × V))} (h : StoreInv n B hs rows) :
    Shape n B rows := ⟨h.len, h.rowLen, h.sorted, h.heap⟩

/-- The root is `≤` every row. -/
theorem Shape.root_le {n B : Nat} {rows : List (List (K × V))} (h : Shape n B rows) (hn : 0 < n) :
    ∀ i, 0 < i → i < B → rowLe (R rows 0) (R rows i) := by
  intro i
  induction i using Nat.strongRecOn with
  | _ i ih =>
    intro hi hiB x hx y hy
    by_cases hp : (i - 1) / 2 = 0
    · have := h.heap i hi hiB; rw [hp] at this; exact this x hx y hy
    · have hlt : (i - 1) / 2 < B := by omega
      have hne : R rows ((i - 1) / 2) ≠ [] := by
        intro he; have := h.rowLen _ hlt; rw [he] at this; simp at this; omega
      obtain ⟨w, hw⟩ := List.exists_mem_of_ne_nil _ hne
      exact le_trans' (ih _ (by omega) (by omega) hlt x hx w hw) (h.heap i hi hiB w hw y hy)

/-- Replacing row `i` by the smaller half of its merge with something `≥` its parent keeps the heap. -/
theorem Shape.step {n B : Nat} {rows : List (List (K × V))} (h : Shape n B rows) {i : Nat} (hi : i < B)
    {c : List (K × V)} (hc : 0 < i → rowLe (R rows ((i - 1) / 2)) c) :
    Shape n B (rows.set i (mergeSplit (R rows i) c).1) := by
  have hl : i < rows.length := by rw [h.len]; exact hi
  refine ⟨by simp [h.len], ?_, ?_, ?_⟩
  · intro j hj
    rw [R_set hl]
    split
    · rw [ms_len1]; exact h.rowLen i hi
    · exact h.rowLen j hj
  · intro j hj
    rw [R_set hl]
    split
    · exact ms_sorted1 _ _
    · exact h.sorted j hj
  · intro j hj hjB
    rw [R_set hl, R_set hl]
    by_cases hji : j = i
    · subst hji
      rw [if_neg (by omega), if_pos rfl]
      exact (ms_ge _ _ (h.heap j hj hjB) (hc hj)).1
    · rw [if_neg hji]
      split
      · rename_i hp
        have := h.heap j hj hjB
        rw [hp] at this
        exact ms_lo_le_of_left _ _ this
      · exact h.heap j hj hjB

/-- Push a block down a list of nodes. -/
def pathPush (rows : List (List (K × V))) : List Nat → List (K × V) → List (List (K × V)) × List (K × V)
  | [], c => (rows, c)
  | i :: is, c => pathPush (rows.set i (mergeSplit (R rows i) c).1) is (mergeSplit (R rows i) c).2

theorem pathPush_append (rows : List (List (K × V))) (p q : List Nat) (c : List (K × V)) :
    pathPush rows (p ++ q) c = pathPush (pathPush rows p c).1 q (pathPush rows p c).2 := by
  induction p generalizing rows c with
  | nil => rfl
  | cons i is ih => simp only [List.cons_append, pathPush, ih]

/-- Nodes strictly below the root on the path to `t`. -/
def pathTo (t : Nat) : List Nat := if t = 0 then [] else pathTo ((t - 1) / 2) ++ [t]
termination_by t
decreasing_by omega

theorem pathTo_succ {t : Nat} (h : t ≠ 0) : pathTo t = pathTo ((t - 1) / 2) ++ [t] := by
  rw [pathTo, if_neg h]

theorem pathTo_mem {t : Nat} : ∀ j ∈ pathTo t, 0 < j ∧ j ≤ t := by
  induction t using Nat.strongRecOn with
  | _ t ih =>
    intro j hj
    by_cases h0 : t = 0
    · subst h0; rw [pathTo] at hj; simp at hj
    · rw [pathTo_succ h0, List.mem_append] at hj
      rcases hj with hj | hj
      · have := ih ((t - 1) / 2) (by omega) j hj; omega
      · simp at hj; omega

theorem pathTo_nodup (t : Nat) : (pathTo t).Nodup := by
  induction t using Nat.strongRecOn with
  | _ t ih =>
    by_cases h0 : t = 0
    · subst h0; rw [pathTo]; simp
    · rw [pathTo_succ h0, List.nodup_append]
      refine ⟨ih _ (by omega), by simp, ?_⟩
      intro a ha b hb
      have := pathTo_mem a ha
      simp at hb; omega

theorem pathTo_length (t : Nat) : (pathTo t).length = (t + 1).log2 := by
  induction t using Nat.strongRecOn with
  | _ t ih =>
    by_cases h0 : t = 0
    · subst h0; rw [pathTo]; simp [Nat.log2_def]
    · rw [pathTo_succ h0, List.length_append, ih _ (by omega), Nat.log2_def (n := t + 1), if_pos (by omega)]
      have : (t - 1) / 2 + 1 = (t + 1) / 2 := by omega
      rw [this]; simp

theorem pathTo_eq (t : Nat) : (List.range (t + 1).log2).map
    (fun l => ((t + 1) >>> ((t + 1).log2 - (l + 1))) - 1) = pathTo t := by
  induction t using Nat.strongRecOn with
  | _ t ih =>
    by_cases h0 : t = 0
    · subst h0; rw [pathTo]; simp [Nat.log2_def]
    · have hh : (t - 1) / 2 + 1 = (t + 1) / 2 := by omega
      rw [pathTo_succ h0, ← ih _ (by omega), hh]
      have hd : (t + 1).log2 = ((t + 1) / 2).log2 + 1 := by
        rw [Nat.log2_def (n := t + 1), if_pos (by omega)]
      rw [hd, List.range_succ, List.map_append]
      congr 1
      · apply List.map_congr_left
        intro l hl
        rw [List.mem_range] at hl
        have : ((t + 1) / 2).log2 + 1 - (l + 1) = (((t + 1) / 2).log2 - (l + 1)) + 1 := by omega
        rw [this, Nat.shiftRight_eq_div_pow, Nat.shiftRight_eq_div_pow, Nat.pow_succ,
          Nat.mul_comm, ← Nat.div_div_eq_div_mul]
      · simp

theorem ms_hi_max (a b : List (K × V)) (hb : b ≠ []) :
    ∃ z ∈ (mergeSplit a b).2, (∀ x ∈ a, KeyCmp.le x.1 z.1 = true) ∧ (∀ x ∈ b, KeyCmp.le x.1 z.1 = true) := by
  have hne : (mergeSplit a b).2 ≠ [] := by
    intro h; have := ms_len2 a b; rw [h] at this; simp at this
    exact hb (List.eq_nil_of_length_eq_zero this.symm)
  have hz := List.getLast_mem hne
  refine ⟨_, hz, ?_⟩
  have key : ∀ x ∈ (mergeSplit a b).1 ++ (mergeSplit a b).2,
      KeyCmp.le x.1 ((mergeSplit a b).2.getLast hne).1 = true := by
    intro x hx
    rcases List.mem_append.1 hx with h | h
    · exact ms_le a b x h _ hz
    · have hs := ms_sorted2 a b
      rw [← List.dropLast_concat_getLast hne] at h hs
      rcases List.mem_append.1 h with h | h
      · exact (List.pairwise_append.1 hs).2.2 x h _ (by simp)
      · simp at h; rw [h]; exact KeyLE.refl _
  exact ⟨fun x hx => key x ((mergeSplit_perm a b).mem_iff.2 (List.mem_append_left _ hx)),
    fun x hx => key x ((mergeSplit_perm a b).mem_iff.2 (List.mem_append_right _ hx))⟩

/-- What pushing a block down the path to `t` does. -/
theorem pathPush_spec {n B : Nat} {rows : List (List (K × V))} (h : Shape n B rows) (hn : 0 < n)
    {c : List (K × V)} (hcl : c.length = n) (hc0 : rowLe (R rows 0) c) (t : Nat) (ht : t < B) :
    let r := pathPush rows (pathTo t) c
    Shape n B r.1 ∧ r.2.length = n ∧ rowLe (R r.1 t) r.2 ∧ rowLe (R rows 0) r.2 ∧
    R r.1 0 = R rows 0 ∧
    (∀ j, j ∉ pathTo t → R r.1 j = R rows j) ∧
    (∀ p, r.1.flatten.countP p + r.2.countP p = rows.flatten.countP p + c.countP p) ∧
    ((∀ j ∈ pathTo t, RowFull (R rows j)) → RowFull c → RowFull r.2 ∧ ∀ j ∈ pathTo t, RowFull (R r.1 j)) ∧
    (∃ z ∈ r.2, (∀ x ∈ c, KeyCmp.le x.1 z.1 = true) ∧ (t ≠ 0 → ∀ x ∈ R rows t, KeyCmp.le x.1 z.1 = true)) := by
  induction t using Nat.strongRecOn with
  | _ t ih =>
    by_cases h0 : t = 0
    · subst h0
      rw [pathTo, if_pos rfl]
      simp only [pathPush]
      have hne : c ≠ [] := by intro he; rw [he] at hcl; simp at hcl; omega
      refine ⟨h, hcl, hc0, hc0, trivial, fun _ _ => trivial, fun _ => trivial, fun _ hf => ⟨hf, by simp⟩, ?_⟩
      obtain ⟨z, hz, _, h2⟩ := ms_hi_max (V := V) [] c hne
      have : z ∈ c := by
        rcases ms_mem2 [] c hz with h | h
        · simp at h
        · exact h
      exact ⟨z, this, h2, fun h => absurd rfl h⟩
    · rw [pathTo_succ h0, pathPush_append]
      obtain ⟨i1, i2, i3, i4, i5, i6, i7, i8, z, hz, hzc, _⟩ := ih ((t - 1) / 2) (by omega) (by omega)
      generalize hr : pathPush rows (pathTo ((t - 1) / 2)) c = r at *
      obtain ⟨rs, cc⟩ := r
      simp only [pathPush] at *
      have hl : t < rs.length := by rw [i1.len]; exact ht
      have hnot : t ∉ pathTo ((t - 1) / 2) := by
        intro hm; have := pathTo_mem t hm; omega
      have hRt : R rs t = R rows t := i6 t hnot
      have hne : cc ≠ [] := by intro he; rw [he] at i2; simp at i2; omega
      refine ⟨i1.step ht (fun _ => i3), ?_, ?_, ?_, ?_, ?_, ?_, ?_, ?_⟩
      · rw [ms_len2]; exact i2
      · rw [R_set hl, if_pos rfl]; exact ms_le _ _
      · have hroot := i1.root_le hn t (by omega) ht
        rw [i5] at hroot
        exact (ms_ge _ _ hroot i4).2
      · rw [R_set hl, if_neg (by omega)]; exact i5
      · intro j hj
        rw [List.mem_append, not_or] at hj
        rw [R_set hl, if_neg (by intro he; apply hj.2; simp [he])]
        exact i6 j hj.1
      · intro p
        have e1 := count_set p hl (mergeSplit (R rs t) cc).1
        have e2 := ms_count (R rs t) cc p
        have e3 := i7 p
        omega
      · intro hf hfc
        obtain ⟨f1, f2⟩ := i8 (fun j hj => hf j (List.mem_append_left _ hj)) hfc
        have hft : RowFull (R rs t) := by rw [hRt]; exact hf t (by simp)
        refine ⟨?_, ?_⟩
        · intro x hx
          rcases ms_mem2 _ _ hx with h | h
          · exact hft x h
          · exact f1 x h
        · intro j hj
          rw [R_set hl]
          split
          · intro x hx
            rcases ms_mem1 _ _ hx with h | h
            · exact hft x h
            · exact f1 x h
          · rename_i hjt
            rcases List.mem_append.1 hj with h | h
            · exact f2 j h
            · simp at h; exact absurd h hjt
      · obtain ⟨z', hz', h1, h2⟩ := ms_hi_max (R rs t) cc hne
        refine ⟨z', hz', fun x hx => le_trans' (hzc x hx) (h2 z hz), fun _ x hx => ?_⟩
        rw [hRt] at h1; exact h1 x hx

/-! ### The scatter of the code is the push -/

theorem scanPath_length (l : List (List (K × V) × Bool)) (c : List (K × V)) :
    (scanPath l c).1.length = l.length := by
  induction l generalizing c with
  | nil => simp [scanPath]
  | cons x xs ih =>
    obtain ⟨node, m⟩ := x
    simp only [scanPath]; split <;> simp [ih]

theorem scatterRows_oob (rows : List (List (K × V))) (upd : List (Nat × List (K × V)))
    (h : ∀ u ∈ upd, rows.length ≤ u.1) : scatterRows rows upd = rows := by
  induction upd with
  | nil => rfl
  | cons u us ih =>
    unfold scatterRows at *
    rw [List.foldl_cons, if_neg (by have := h u (by simp); omega)]
    exact ih (fun v hv => h v (by simp [hv]))

theorem scatterRows_append (rows : List (List (K × V))) (a b : List (Nat × List (K × V))) :
    scatterRows rows (a ++ b) = scatterRows (scatterRows rows a) b := by
  unfold scatterRows; rw [List.foldl_append]

theorem scatterRows_length (rows : List (List (K × V))) (u : List (Nat × List (K × V))) :
    (scatterRows rows u).length = rows.length := by
  induction u generalizing rows with
  | nil => rfl
  | cons x xs ih =>
    have e : scatterRows rows (x :: xs) =
        scatterRows (if x.1 < rows.length then rows.set x.1 x.2 else rows) xs := rfl
    rw [e, ih]; split <;> simp

theorem scanPath_merge_eq (rows : List (List (K × V))) (path : List Nat) (c : List (K × V))
    (hd : path.Nodup) (hlt : ∀ j ∈ path, j < rows.length)
    (rest : List (List (K × V) × Bool)) :
    ∃ tl, (scanPath (path.map (fun i => (R rows i, true)) ++ rest) c).1 =
      (scanPath (path.map (fun i => (R rows i, true))) c).1 ++ tl ∧
    scatterRows rows (path.zip (scanPath (path.map (fun i => (R rows i, true))) c).1) =
      (pathPush rows path c).1 := by
  induction path generalizing rows c with
  | nil => exact ⟨(scanPath rest c).1, by simp [scanPath], by simp [scanPath, scatterRows, pathPush]⟩
  | cons i is ih =>
    rw [List.nodup_cons] at hd
    have hi : i < rows.length := hlt i (by simp)
    obtain ⟨tl, h1, h2⟩ := ih (rows.set i (mergeSplit (R rows i) c).1) (mergeSplit (R rows i) c).2
      hd.2 (fun j hj => by simp; exact hlt j (by simp [hj]))
    have hm : is.map (fun j => (R (rows.set i (mergeSplit (R rows i) c).1) j, true)) =
        is.map (fun j => (R rows j, true)) := by
      apply List.map_congr_left
      intro j hj
      rw [R_set hi, if_neg (by rintro rfl; exact hd.1 hj)]
    rw [hm] at h1 h2
    refine ⟨tl, ?_, ?_⟩
    · simp only [List.map_cons, List.cons_append, scanPath, if_true, h1]
    · simp only [List.map_cons, scanPath, if_true, List.zip_cons_cons, pathPush]
      rw [← h2]
      unfold scatterRows
      rw [List.foldl_cons, if_pos hi]

/-- The path table of the code: level 0, the path, the masked-out levels. -/
theorem pathIndices_eq (B t : Nat) (ht : t < B) :
    pathIndices (maxDepth B) t = (0, true) :: (pathTo t).map (fun i => (i, true)) ++
      List.replicate (maxDepth B - 1 - (t + 1).log2) (2 ^ 32 - 1, false) := by
  have hle : (t + 1).log2 ≤ B.log2 := by
    have h1 := Nat.log2_self_le (n := t + 1) (by omega)
    have h2 := Nat.lt_log2_self (n := B)
    have : 2 ^ (t + 1).log2 < 2 ^ (B.log2 + 1) := by omega
    have := (Nat.pow_lt_pow_iff_right (a := 2) (by omega)).1 this
    omega
  rw [← pathTo_eq]
  unfold pathIndices maxDepth
  apply List.ext_getElem?
  intro i
  simp only [List.getElem?_map, List.map_map]
  by_cases h0 : i = 0
  · subst h0
    simp only [List.cons_append, List.getElem?_cons_zero, List.getElem?_range (by omega : 0 < B.log2 + 1)]
    simp only [Option.map_some, if_pos (Nat.zero_le _), Nat.sub_zero, Nat.shiftRight_eq_div_pow]
    have h1 := Nat.log2_self_le (n := t + 1) (by omega)
    have h2 := Nat.lt_log2_self (n := t + 1)
    have : (t + 1) / 2 ^ (t + 1).log2 = 1 := by
      apply Nat.div_eq_of_lt_le <;> rw [Nat.pow_succ] at * <;> omega
    rw [this]
  · obtain ⟨j, rfl⟩ := Nat.exists_eq_succ_of_ne_zero h0
    simp only [List.cons_append, Nat.succ_eq_add_one, List.getElem?_cons_succ]
    by_cases hj : j < (t + 1).log2
    · rw [List.getElem?_append_left (by simp; omega), List.getElem?_map,
        List.getElem?_range hj, List.getElem?_range (by omega)]
      simp only [Option.map_some, Function.comp]
      rw [if_pos (by omega)]
    · rw [List.getElem?_append_right (by simp; omega), List.getElem?_replicate]
      simp only [List.length_map, List.length_range]
      by_cases hj2 : j + 1 < B.log2 + 1
      · rw [List.getElem?_range hj2, if_pos (by omega)]
        simp only [Option.map_some]; rw [if_neg (by omega)]
      · rw [List.getElem?_eq_none (by simp; omega), if_neg (by omega)]; rfl


/-- The update list of the code, decoded. -/
theorem insertUpdates_eq (h : Heap K V) (t : Nat) (ht : t < h.branchSize)
    (hlen : h.rows.length = h.branchSize) (block : List (K × V)) :
    ∃ tl : List (Nat × List (K × V)), (∀ u ∈ tl, u.1 = h.branchSize) ∧
      insertUpdates h t block = (0, R h.rows 0) ::
        (pathTo t).zip (scanPath ((pathTo t).map (fun i => (R h.rows i, true))) block).1 ++ tl := by
  have hpos : 0 < h.branchSize := by omega
  unfold insertUpdates
  rw [pathIndices_eq _ _ ht]
  generalize hm : maxDepth h.branchSize - 1 - (t + 1).log2 = m
  -- masked table
  have hmask : ((0, true) :: (pathTo t).map (fun i => (i, true)) ++ List.replicate m (2 ^ 32 - 1, false)).zipIdx.map
      (fun ((p, lvl) : (Nat × Bool) × Nat) => (p.1, p.2 && decide (lvl > 0))) =
      (0, false) :: ((pathTo t).map (fun i => (i, true)) ++ List.replicate m (2 ^ 32 - 1, false)) := by
    rw [List.cons_append, List.zipIdx_cons, List.map_cons]
    congr 1
    apply List.ext_getElem?
    intro i
    rw [List.getElem?_map, List.getElem?_zipIdx]
    cases hx : ((pathTo t).map (fun i => (i, true)) ++ List.replicate m (2 ^ 32 - 1, false))[i]? with
    | none => rfl
    | some x => have : 0 < 1 + i := by omega
                simp [this]
  simp only [hmask]
  -- scatter indices
  have hidx : (((0, false) :: ((pathTo t).map (fun i => (i, true)) ++ List.replicate m (2 ^ 32 - 1, false))).zipIdx.map
      fun ((p, lvl) : (Nat × Bool) × Nat) => if p.2 || decide (lvl = 0) then p.1 else h.branchSize) =
      0 :: (pathTo t ++ List.replicate m h.branchSize) := by
    rw [List.zipIdx_cons, List.map_cons]
    congr 1
    apply List.ext_getElem?
    intro i
    rw [List.getElem?_map, List.getElem?_zipIdx]
    by_cases hi : i < (pathTo t).length
    · rw [List.getElem?_append_left (by simpa using hi), List.getElem?_append_left hi,
        List.getElem?_map, List.getElem?_eq_getElem hi]
      simp
    · rw [List.getElem?_append_right (by simp; omega), List.getElem?_append_right (by omega)]
      simp only [List.length_map, List.getElem?_replicate]
      split
      · simp
      · rfl
  rw [hidx]
  have hnodes : ((0, false) :: ((pathTo t).map (fun i => (i, true)) ++ List.replicate m ((2 ^ 32 - 1 : Nat), false))).map
      (fun ((i, m) : Nat × Bool) => (rowAt h.rows (if m then i else 0), m)) =
      (R h.rows 0, false) :: ((pathTo t).map (fun i => (R h.rows i, true)) ++
        List.replicate m (R h.rows 0, false)) := by
    rw [List.map_cons, List.map_append, List.map_map, List.map_replicate]
    have h0 : rowAt h.rows 0 = R h.rows 0 := rowAt_of_lt (by omega)
    simp only [Bool.false_eq_true, if_false, h0]
    congr 2
    apply List.map_congr_left
    intro j hj
    have := pathTo_mem j hj
    simp only [Function.comp, if_true]
    rw [rowAt_of_lt (by omega)]
  rw [hnodes]
  obtain ⟨tl, h1, h2⟩ := scanPath_merge_eq h.rows (pathTo t) block (pathTo_nodup t)
    (fun j hj => by have := pathTo_mem j hj; omega) (List.replicate m (R h.rows 0, false))
  have hscan : (scanPath ((R h.rows 0, false) :: ((pathTo t).map (fun i => (R h.rows i, true)) ++
        List.replicate m (R h.rows 0, false))) block).1 = R h.rows 0 ::
        ((scanPath ((pathTo t).map (fun i => (R h.rows i, true))) block).1 ++ tl) := by
    rw [scanPath, ← h1]; simp
  rw [hscan]
  refine ⟨(List.replicate m h.branchSize).zip tl, ?_, ?_⟩
  · intro u hu
    exact List.eq_of_mem_replicate (List.of_mem_zip (show (u.1, u.2) ∈ _ from hu)).1
  · rw [List.zip_cons_cons, List.zip_append, List.cons_append]
    rw [scanPath_length, List.length_map]

/-- The in-range indices scattered by an insertion are distinct. -/
theorem insertUpdates_nodup (h : Heap K V) (t : Nat) (ht : t < h.branchSize)
    (hlen : h.rows.length = h.branchSize) (block : List (K × V)) :
    (((insertUpdates h t block).map Prod.fst).filter (fun i => decide (i < h.branchSize))).Nodup := by
  obtain ⟨tl, h1, h2⟩ := insertUpdates_eq h t ht hlen block
  have htl : (tl.map Prod.fst).filter (fun i => decide (i < h.branchSize)) = [] := by
    rw [List.filter_eq_nil_iff]
    intro i hi
    rw [List.mem_map] at hi
    obtain ⟨u, hu, rfl⟩ := hi
    simp [h1 u hu]
  rw [h2, List.map_append, List.filter_append, htl, List.append_nil, List.map_cons, List.map_fst_zip
    (by rw [scanPath_length, List.length_map]; exact Nat.le_refl _)]
  apply List.Pairwise.filter
  show List.Nodup _
  rw [List.nodup_cons]
  exact ⟨fun h0 => by have := pathTo_mem 0 h0; omega, pathTo_nodup t⟩

theorem pathTo_increasing (t : Nat) : (pathTo t).Pairwise (· < ·) := by
  induction t using Nat.strongRecOn with
  | _ t ih =>
    by_cases h0 : t = 0
    · subst h0; rw [pathTo]; simp
    · rw [pathTo_succ h0, List.pairwise_append]
      refine ⟨ih _ (by omega), by simp, ?_⟩
      intro a ha b hb
      have := pathTo_mem a ha
      simp at hb; omega

/-- The scatter indices of an insertion are sorted, as the code promises to XLA (`indices_are_sorted=True`,
_insert.py:156-171). -/
theorem insertUpdates_sorted (h : Heap K V) (t : Nat) (ht : t < h.branchSize)
    (hlen : h.rows.length = h.branchSize) (block : List (K × V)) :
    ((insertUpdates h t block).map Prod.fst).Pairwise (· ≤ ·) := by
  obtain ⟨tl, h1, h2⟩ := insertUpdates_eq h t ht hlen block
  rw [h2, List.map_append, List.map_cons, List.map_fst_zip (by rw [scanPath_length, List.length_map]; exact Nat.le_refl _),
    List.pairwise_append]
  have htl : ∀ i ∈ tl.map Prod.fst, i = h.branchSize := by
    intro i hi
    obtain ⟨u, hu, rfl⟩ := List.mem_map.1 hi
    exact h1 u hu
  refine ⟨?_, ?_, ?_⟩
  · rw [List.pairwise_cons]
    exact ⟨fun _ _ => Nat.zero_le _, (pathTo_increasing t).imp Nat.le_of_lt⟩
  · apply List.Pairwise.imp_of_mem (R := fun _ _ => True) _ (List.pairwise_of_forall fun _ _ => trivial)
    intro a b ha hb _
    rw [htl a ha, htl b hb]; exact Nat.le_refl _
  · intro a ha b hb
    rw [htl b hb]
    rcases List.mem_cons.1 ha with rfl | ha
    · exact Nat.zero_le _
    · have := pathTo_mem a ha; omega

theorem set_R_self {rows : List (List (K × V))} {i : Nat} (h : i < rows.length) :
    rows.set i (R rows i) = rows := by
  unfold R
  rw [List.getElem?_eq_getElem h]; simp

theorem scatter_insert (h : Heap K V) (t : Nat) (ht : t < h.branchSize)
    (hlen : h.rows.length = h.branchSize) (block : List (K × V)) :
    scatterRows h.rows (insertUpdates h t block) = (pathPush h.rows (pathTo t) block).1 := by
  obtain ⟨tl, h1, h2⟩ := insertUpdates_eq h t ht hlen block
  obtain ⟨_, _, h3⟩ := scanPath_merge_eq h.rows (pathTo t) block (pathTo_nodup t)
    (fun j hj => by have := pathTo_mem j hj; omega) []
  rw [h2, scatterRows_append, scatterRows_oob]
  · have : scatterRows h.rows ((0, R h.rows 0) ::
        (pathTo t).zip (scanPath ((pathTo t).map (fun i => (R h.rows i, true))) block).1) =
        scatterRows h.rows ((pathTo t).zip (scanPath ((pathTo t).map (fun i => (R h.rows i, true))) block).1) := by
      have e : ∀ us, scatterRows h.rows ((0, R h.rows 0) :: us) =
          scatterRows (if 0 < h.rows.length then h.rows.set 0 (R h.rows 0) else h.rows) us := fun _ => rfl
      rw [e, if_pos (by omega), set_R_self (by omega)]
    rw [this, h3]
  · intro u hu
    rw [scatterRows_length, h1 u hu, hlen]; exact Nat.le_refl _

/-! ### argmax -/

theorem argmaxAux_spec (best : Nat) (bk : K) (i : Nat) (ks pre : List K)
    (hi : i = pre.length) (hb : pre[best]? = some bk)
    (hmax : ∀ k ∈ pre, KeyCmp.le k bk = true) :
    ∃ m, (pre ++ ks)[argmaxAux best bk i ks]? = some m ∧ ∀ k ∈ pre ++ ks, KeyCmp.le k m = true := by
  induction ks generalizing best bk i pre with
  | nil => exact ⟨bk, by simpa [argmaxAux] using hb, by simpa using hmax⟩
  | cons k ks ih =>
    rw [argmaxAux]
    rw [show pre ++ k :: ks = (pre ++ [k]) ++ ks by simp]
    split
    · rename_i hle
      apply ih _ _ _ (pre ++ [k]) (by simp [hi])
      · rw [List.getElem?_append_left, hb]
        have := (List.getElem?_eq_some_iff.1 hb).1; exact this
      · intro y hy
        rcases List.mem_append.1 hy with h | h
        · exact hmax y h
        · simp at h; rw [h]; exact hle
    · rename_i hle
      have hge : KeyCmp.le bk k = true := KeyLE.le_of_not_le (by simpa using hle)
      apply ih _ _ _ (pre ++ [k]) (by simp [hi])
      · rw [List.getElem?_append_right (by omega)]; simp [hi]
      · intro y hy
        rcases List.mem_append.1 hy with h | h
        · exact le_trans' (hmax y h) hge
        · simp at h; rw [h]; exact KeyLE.refl _

theorem lastKey_mem {r : List (K × V)} (h : r ≠ []) : ∃ x ∈ r, lastKey r = x.1 :=
  ⟨r.getLast h, List.getLast_mem h, by simp [lastKey, List.getLast?_eq_some_getLast h]⟩

theorem lastKey_max {r : List (K × V)} (hs : RowSorted r) (x : K × V) (hx : x ∈ r) :
    KeyCmp.le x.1 (lastKey r) = true := by
  have hne : r ≠ [] := List.ne_nil_of_mem hx
  have e : lastKey r = (r.getLast hne).1 := by simp [lastKey, List.getLast?_eq_some_getLast hne]
  rw [e]
  unfold RowSorted at hs
  rw [← List.dropLast_concat_getLast hne] at hx hs
  rcases List.mem_append.1 hx with h | h
  · exact (List.pairwise_append.1 hs).2.2 x h _ (by simp)
  · simp at h; rw [h]; exact KeyLE.refl _

theorem firstKey_min {r : List (K × V)} (hs : RowSorted r) (x : K × V) (hx : x ∈ r) :
    KeyCmp.le (firstKey r) x.1 = true := by
  cases r with
  | nil => simp at hx
  | cons y ys =>
    simp only [firstKey, List.head?_cons, Option.map_some, Option.getD_some]
    rcases List.mem_cons.1 hx with h | h
    · rw [h]; exact KeyLE.refl _
    · exact (List.pairwise_cons.1 hs).1 x h

theorem argmaxLast_spec {n B : Nat} {rows : List (List (K × V))} (h : Shape n B rows) (hB : 0 < B)
    (hn : 0 < n) : argmaxLast rows < B ∧
    ∃ z ∈ R rows (argmaxLast rows), ∀ i, i < B → ∀ x ∈ R rows i, KeyCmp.le x.1 z.1 = true := by
  have hl := h.len
  unfold argmaxLast
  cases hk : rows.map lastKey with
  | nil =>
    have := congrArg List.length hk
    simp at this; rw [this] at hl; simp at hl; omega
  | cons k ks =>
    obtain ⟨m, h1, h2⟩ := argmaxAux_spec 0 k 1 ks [k] rfl rfl
      (by intro y hy; simp at hy; rw [hy]; exact KeyLE.refl _)
    simp only [List.cons_append, List.nil_append] at h1 h2
    rw [← hk] at h1 h2
    simp only
    generalize argmaxAux 0 k 1 ks = a at *
    rw [List.getElem?_map] at h1
    cases hr : rows[a]? with
    | none => rw [hr] at h1; simp at h1
    | some r =>
      rw [hr] at h1
      simp only [Option.map_some, Option.some.injEq] at h1
      have hlt := (List.getElem?_eq_some_iff.1 hr).1
      have hR : R rows a = r := by simp [R, hr]
      have hne : r ≠ [] := by
        intro he; have := h.rowLen a (by omega); rw [hR, he] at this; simp at this; omega
      obtain ⟨z, hz, hzk⟩ := lastKey_mem hne
      refine ⟨by omega, z, by rw [hR]; exact hz, ?_⟩
      intro i hi x hx
      rw [← hzk, h1]
      refine le_trans' (lastKey_max (h.sorted i hi) x hx) (h2 _ ?_)
      rw [List.mem_map]
      refine ⟨R rows i, ?_, rfl⟩
      unfold R
      rw [List.getElem?_eq_getElem (by omega)]; simp

/-! ### heapify and insert -/

/-- Heapify after a buffer overflow. -/
theorem insertHeapify_spec {h : Heap K V} (hn : 0 < h.batchSize)
    (hs : StoreInv h.batchSize h.branchSize h.heapSize h.rows)
    (hroot : RowFull (R h.rows 0))
    {c : List (K × V)} (hcl : c.length = h.batchSize) (hcf : RowFull c) (hc0 : rowLe (R h.rows 0) c) :
    ∃ d : List (K × V), d.length = h.batchSize ∧
      StoreInv h.batchSize h.branchSize (h.heapSize + if (insertHeapify h c).2 then 1 else 0)
        (insertHeapify h c).1.rows ∧
      (insertHeapify h c).1 = { h with rows := (insertHeapify h c).1.rows } ∧
      (∀ p, (insertHeapify h c).1.rows.flatten.countP p + d.countP p
        = h.rows.flatten.countP p + c.countP p) ∧
      (∀ e, rowLe (R h.rows 0) e → rowLe (R (insertHeapify h c).1.rows 0) e) ∧
      rowLe (R (insertHeapify h c).1.rows 0) d ∧
      (RowInf d ∨ (h.heapSize + 1 = h.branchSize ∧ RowFull d ∧
        ∃ z ∈ d, ∀ x ∈ (insertHeapify h c).1.rows.flatten, KeyCmp.le x.1 z.1 = true)) := by
  have hsh := hs.shape
  have hlen := hs.len
  have hlt := hs.hs_lt
  have hB : 0 < h.branchSize := by omega
  have hfullrow : ∀ i, i ≤ h.heapSize → RowFull (R h.rows i) := by
    intro i hi
    by_cases h0 : 0 < h.heapSize
    · exact hs.full h0 i hi
    · have : i = 0 := by omega
      rw [this]; exact hroot
  by_cases hfull : h.heapSize ≥ h.branchSize - 1
  · -- full heap
    obtain ⟨hat, z, hz, hzmax⟩ := argmaxLast_spec hsh hB hn
    have hhs : h.heapSize = h.branchSize - 1 := by omega
    have hcne : c ≠ [] := by intro he; rw [he] at hcl; simp at hcl; omega
    by_cases h0 : argmaxLast h.rows = 0
    · have e : insertHeapify h c =
          ({ h with rows := h.rows.set 0 (mergeSplit (R h.rows 0) c).1 }, false) := by
        unfold insertHeapify
        simp only [hfull, decide_true, if_true, h0, hB, Bool.not_true, Bool.and_false]
        rw [rowAt_of_lt (by omega)]
      rw [e]
      dsimp only
      have hl0 : 0 < h.rows.length := by omega
      have hsh' := hsh.step hB (c := c) (by omega)
      refine ⟨(mergeSplit (R h.rows 0) c).2, ?_, ?_, rfl, ?_, ?_, ?_, ?_⟩
      · rw [ms_len2]; exact hcl
      · refine ⟨hsh'.len, hsh'.rowLen, hsh'.sorted, hsh'.heap, by simpa using hlt, ?_, ?_⟩
        · intro i hi hiB
          simp at hi
          omega
        · intro _ i hi
          simp at hi
          rw [R_set hl0]
          split
          · intro x hx
            rcases ms_mem1 _ _ hx with hh | hh
            · exact hroot x hh
            · exact hcf x hh
          · exact hfullrow i hi
      · intro p
        have e1 := count_set p hl0 (mergeSplit (R h.rows 0) c).1
        have e2 := ms_count (R h.rows 0) c p
        omega
      · intro e he
        rw [R_set hl0, if_pos rfl]
        exact ms_lo_le_of_left _ _ he
      · rw [R_set hl0, if_pos rfl]; exact ms_le _ _
      · right
        refine ⟨by omega, ?_, ?_⟩
        · intro x hx
          rcases ms_mem2 _ _ hx with hh | hh
          · exact hroot x hh
          · exact hcf x hh
        · obtain ⟨w, hw, hw1, hw2⟩ := ms_hi_max (R h.rows 0) c hcne
          refine ⟨w, hw, ?_⟩
          rw [h0] at hz
          have hall : ∀ x ∈ h.rows.flatten, KeyCmp.le x.1 w.1 = true := by
            intro x hx
            rw [List.mem_flatten] at hx
            obtain ⟨r, hr, hxr⟩ := hx
            obtain ⟨i, hi, hri⟩ := List.mem_iff_getElem.1 hr
            have : R h.rows i = r := by simp [R, List.getElem?_eq_getElem hi, hri]
            exact le_trans' (hzmax i (by omega) x (by rw [this]; exact hxr)) (hw1 z hz)
          have hcnt := count_set (fun x => !KeyCmp.le x.1 w.1) hl0 (mergeSplit (R h.rows 0) c).1
          have hz1 : h.rows.flatten.countP (fun x => !KeyCmp.le x.1 w.1) = 0 := by
            rw [List.countP_eq_zero]; intro x hx; simp [hall x hx]
          have hz2 : (mergeSplit (R h.rows 0) c).1.countP (fun x => !KeyCmp.le x.1 w.1) = 0 := by
            rw [List.countP_eq_zero]; intro x hx
            rcases ms_mem1 _ _ hx with hh | hh
            · simp [hw1 x hh]
            · simp [hw2 x hh]
          rw [hz1, hz2] at hcnt
          intro x hx
          have := List.countP_eq_zero.1 (by omega : (h.rows.set 0 (mergeSplit (R h.rows 0) c).1).flatten.countP
            (fun x => !KeyCmp.le x.1 w.1) = 0) x hx
          simpa using this
    · have e : insertHeapify h c =
          ({ h with rows := (pathPush h.rows (pathTo (argmaxLast h.rows)) c).1 }, false) := by
        unfold insertHeapify
        simp only [hfull, decide_true, if_true, h0, if_false, hat, Bool.not_true, Bool.and_false]
        rw [scatter_insert _ _ hat hlen]
      rw [e]
      dsimp only
      obtain ⟨p1, p2, p3, p4, p5, p6, p7, p8, w, hw, hwc, hwt⟩ :=
        pathPush_spec hsh hn hcl hc0 (argmaxLast h.rows) hat
      have hpf : ∀ j ∈ pathTo (argmaxLast h.rows), RowFull (R h.rows j) := by
        intro j hj
        have := pathTo_mem j hj
        exact hfullrow j (by omega)
      obtain ⟨f1, f2⟩ := p8 hpf hcf
      refine ⟨_, p2, ?_, rfl, p7, ?_, ?_, ?_⟩
      · refine ⟨p1.len, p1.rowLen, p1.sorted, p1.heap, by simpa using hlt, ?_, ?_⟩
        · intro i hi hiB
          simp at hi
          omega
        · intro _ i hi
          simp at hi
          by_cases hm : i ∈ pathTo (argmaxLast h.rows)
          · exact f2 i hm
          · rw [p6 i hm]; exact hfullrow i hi
      · intro e he; rw [p5]; exact he
      · rw [p5]; exact p4
      · right
        refine ⟨by omega, f1, w, hw, ?_⟩
        have hall : ∀ x ∈ h.rows.flatten, KeyCmp.le x.1 w.1 = true := by
          intro x hx
          rw [List.mem_flatten] at hx
          obtain ⟨r, hr, hxr⟩ := hx
          obtain ⟨i, hi, hri⟩ := List.mem_iff_getElem.1 hr
          have : R h.rows i = r := by simp [R, List.getElem?_eq_getElem hi, hri]
          exact le_trans' (hzmax i (by omega) x (by rw [this]; exact hxr)) (hwt h0 z hz)
        have hcnt := p7 (fun x => !KeyCmp.le x.1 w.1)
        have hz1 : h.rows.flatten.countP (fun x => !KeyCmp.le x.1 w.1) = 0 := by
          rw [List.countP_eq_zero]; intro x hx; simp [hall x hx]
        have hz2 : c.countP (fun x => !KeyCmp.le x.1 w.1) = 0 := by
          rw [List.countP_eq_zero]; intro x hx; simp [hwc x hx]
        rw [hz1, hz2] at hcnt
        intro x hx
        have := List.countP_eq_zero.1 (by omega : (pathPush h.rows (pathTo (argmaxLast h.rows)) c).1.flatten.countP
          (fun x => !KeyCmp.le x.1 w.1) = 0) x hx
        simpa using this
  · -- a free row
    have ht : h.heapSize + 1 < h.branchSize := by omega
    have e : insertHeapify h c =
        ({ h with rows := (pathPush h.rows (pathTo (h.heapSize + 1)) c).1 }, true) := by
      unfold insertHeapify
      simp only [hfull, decide_false, Bool.false_eq_true, if_false, ht, decide_true, if_true,
        Nat.add_one_ne_zero, Bool.not_false, Bool.and_true]
      rw [scatter_insert _ _ ht hlen]
    rw [e]
    dsimp only
    -- split off the last step
    have hpar : (h.heapSize + 1 - 1) / 2 < h.branchSize := by omega
    obtain ⟨p1, p2, p3, p4, p5, p6, p7, p8, _⟩ := pathPush_spec hsh hn hcl hc0 _ hpar
    obtain ⟨q1, q2, _, q4, q5, q6, q7, _, _⟩ := pathPush_spec hsh hn hcl hc0 _ ht
    have hpf : ∀ j ∈ pathTo ((h.heapSize + 1 - 1) / 2), RowFull (R h.rows j) := by
      intro j hj
      have := pathTo_mem j hj
      exact hfullrow j (by omega)
    obtain ⟨f1, f2⟩ := p8 hpf hcf
    have hpp : pathPush h.rows (pathTo (h.heapSize + 1)) c =
        pathPush (pathPush h.rows (pathTo ((h.heapSize + 1 - 1) / 2)) c).1 [h.heapSize + 1]
          (pathPush h.rows (pathTo ((h.heapSize + 1 - 1) / 2)) c).2 := by
      rw [pathTo_succ (t := h.heapSize + 1) (by omega), pathPush_append]
    generalize hr : pathPush h.rows (pathTo ((h.heapSize + 1 - 1) / 2)) c = r at *
    have hnot : h.heapSize + 1 ∉ pathTo ((h.heapSize + 1 - 1) / 2) := by
      intro hm; have := pathTo_mem _ hm; omega
    have hRt : RowInf (R r.1 (h.heapSize + 1)) := by
      rw [p6 _ hnot]; exact hs.empty _ (by omega) ht
    have hl : h.heapSize + 1 < r.1.length := by rw [p1.len]; exact ht
    obtain ⟨g1, g2⟩ := ms_fin_first (R r.1 (h.heapSize + 1)) r.2
    have hc1 := rowInf_iff_count.1 hRt
    have hc2 := rowFull_iff_count.1 f1
    rw [p1.rowLen _ ht, hc1, hc2, p2] at g1 g2
    have hinf : RowInf (pathPush h.rows (pathTo (h.heapSize + 1)) c).2 := by
      rw [hpp, rowInf_iff_count]; simp only [pathPush]; omega
    have hlofull : RowFull (mergeSplit (R r.1 (h.heapSize + 1)) r.2).1 := by
      rw [rowFull_iff_count, ms_len1, p1.rowLen _ ht]; omega
    have hrows : (pathPush h.rows (pathTo (h.heapSize + 1)) c).1 =
        r.1.set (h.heapSize + 1) (mergeSplit (R r.1 (h.heapSize + 1)) r.2).1 := by
      rw [hpp]; rfl
    refine ⟨_, q2, ?_, rfl, q7, ?_, ?_, Or.inl hinf⟩
    · simp only [if_true]
      refine ⟨q1.len, q1.rowLen, q1.sorted, q1.heap, ht, ?_, ?_⟩
      · intro i hi hiB
        rw [q6 i (fun hm => by have := pathTo_mem _ hm; omega)]
        exact hs.empty i (by omega) hiB
      · intro _ i hi
        rw [hrows, R_set hl]
        split
        · exact hlofull
        · by_cases hm : i ∈ pathTo ((h.heapSize + 1 - 1) / 2)
          · exact f2 i hm
          · rw [p6 i hm]; exact hfullrow i (by omega)
    · intro e he; rw [q5]; exact he
    · rw [q5]; exact q4

end Bgpq
