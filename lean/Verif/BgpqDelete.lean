import Verif.BgpqInsertTop

/-!
# `delete_mins` preserves the invariant and removes exactly the returned batch
-/

set_option linter.unusedSectionVars false

namespace Bgpq

open MergeModel

variable {K : Type u} [KeyInf K] {V : Type v}

/-- Invariant of the sift-down: `S` is the store with all pending updates applied; heap order may be
violated only between node `idx` and its children. -/
structure SInv (n B hs : Nat) (buf : List (K × V)) (S : List (List (K × V))) (idx : Nat) : Prop where
  len : S.length = B
  idxLt : idx < B
  rowLen : ∀ i, i < B → (R S i).length = n
  sorted : ∀ i, i < B → RowSorted (R S i)
  heap : ∀ j, 0 < j → j < B → (j - 1) / 2 ≠ idx → rowLe (R S ((j - 1) / 2)) (R S j)
  grand : 0 < idx → ∀ c, 0 < c → c < B → (c - 1) / 2 = idx → rowLe (R S ((idx - 1) / 2)) (R S c)
  empty : ∀ i, hs < i → i < B → RowInf (R S i)
  full : ∀ i, i ≤ hs → RowFull (R S i)
  bufGe : rowLe (R S 0) buf

/-- One iteration of the sift-down body. -/
theorem SInv.step {n B hs : Nat} {buf : List (K × V)} {S : List (List (K × V))} {idx x y : Nat}
    (h : SInv n B hs buf S idx) (_hn : 0 < n) (hhs : hs + 1 < B) (hleft : 2 * idx + 1 ≤ hs)
    (hxy : (x = 2 * idx + 1 ∧ y = 2 * idx + 2) ∨ (x = 2 * idx + 2 ∧ y = 2 * idx + 1))
    (hmax : ∀ e ∈ R S y, ∃ f ∈ R S x, KeyCmp.le e.1 f.1 = true)
    (hsel : RowInf (R S (2 * idx + 2)) → x = 2 * idx + 2) :
    let m := mergeSplit (R S (2 * idx + 1)) (R S (2 * idx + 2))
    let m' := mergeSplit (R S idx) m.1
    SInv n B hs buf (((S.set idx m'.1).set x m.2).set y m'.2) y ∧
    ∀ p, (((S.set idx m'.1).set x m.2).set y m'.2).flatten.countP p = S.flatten.countP p := by
  intro m m'
  have hlen := h.len
  have hidx := h.idxLt
  have hxlt : x < B := by omega
  have hylt : y < B := by omega
  have hxy' : x ≠ y := by omega
  have hxi : x ≠ idx := by omega
  have hyi : y ≠ idx := by omega
  have hl1 : (R S (2 * idx + 1)).length = n := h.rowLen _ (by omega)
  have hl2 : (R S (2 * idx + 2)).length = n := h.rowLen _ (by omega)
  have hl0 : (R S idx).length = n := h.rowLen _ hidx
  have hm1 : m.1.length = n := by show (mergeSplit _ _).1.length = n; rw [ms_len1, hl1]
  have hm2 : m.2.length = n := by show (mergeSplit _ _).2.length = n; rw [ms_len2, hl2]
  have hk1 : m'.1.length = n := by show (mergeSplit _ _).1.length = n; rw [ms_len1, hl0]
  have hk2 : m'.2.length = n := by show (mergeSplit _ _).2.length = n; rw [ms_len2, hm1]
  -- new rows
  have hR : ∀ j, R (((S.set idx m'.1).set x m.2).set y m'.2) j =
      if j = y then m'.2 else if j = x then m.2 else if j = idx then m'.1 else R S j := by
    intro j
    rw [R_set (by simp; omega), R_set (by simp; omega), R_set (by omega)]
  -- both children are bounded by `x`'s children
  have hXc : ∀ c, 0 < c → c < B → (c - 1) / 2 = x →
      rowLe (R S (2 * idx + 1)) (R S c) ∧ rowLe (R S (2 * idx + 2)) (R S c) := by
    intro c hc hcB hcx
    have hX : rowLe (R S x) (R S c) := by
      have := h.heap c hc hcB (by omega)
      rwa [hcx] at this
    have hY : rowLe (R S y) (R S c) := by
      intro e he z hz
      obtain ⟨f, hf, hef⟩ := hmax e he
      exact le_trans' hef (hX f hf z hz)
    rcases hxy with ⟨rfl, rfl⟩ | ⟨rfl, rfl⟩
    · exact ⟨hX, hY⟩
    · exact ⟨hY, hX⟩
  have hYc : ∀ c, 0 < c → c < B → (c - 1) / 2 = y → rowLe m.1 (R S c) := by
    intro c hc hcB hcy
    have hY : rowLe (R S y) (R S c) := by
      have := h.heap c hc hcB (by omega)
      rwa [hcy] at this
    rcases hxy with ⟨rfl, rfl⟩ | ⟨rfl, rfl⟩
    · exact ms_lo_le_of_right _ _ (by omega) hY
    · exact ms_lo_le_of_left _ _ hY
  have hkcx : rowLe m'.1 m.2 := ms_lo_le_of_right _ _ (by omega) (ms_le _ _)
  have hkcy : rowLe m'.1 m'.2 := ms_le _ _
  -- bounds from above for the parent of `idx`
  have hpar : 0 < idx → rowLe (R S ((idx - 1) / 2)) m'.1 := by
    intro h0
    have a1 := h.heap idx h0 hidx (by omega)
    have a2 := h.grand h0 (2 * idx + 1) (by omega) (by omega) (by omega)
    have a3 := h.grand h0 (2 * idx + 2) (by omega) (by omega) (by omega)
    exact (ms_ge _ _ a1 (ms_ge _ _ a2 a3).1).1
  have hfl : RowFull (R S (2 * idx + 1)) := h.full _ hleft
  have hfi : RowFull (R S idx) := h.full _ (by omega)
  have hfm1 : RowFull m.1 := by
    rw [rowFull_iff_count, hm1]
    show nFinite (mergeSplit _ _).1 = n
    rw [(ms_fin_first _ _).1, hl1, rowFull_iff_count.1 hfl, hl1]; omega
  have hfk : RowFull m'.1 ∧ RowFull m'.2 := by
    constructor
    · intro e he
      rcases ms_mem1 _ _ he with h' | h'
      · exact hfi e h'
      · exact hfm1 e h'
    · intro e he
      rcases ms_mem2 _ _ he with h' | h'
      · exact hfi e h'
      · exact hfm1 e h'
  refine ⟨⟨by simp [hlen], hylt, ?_, ?_, ?_, ?_, ?_, ?_, ?_⟩, ?_⟩
  · intro i hi
    rw [hR]
    split
    · exact hk2
    · split
      · exact hm2
      · split
        · exact hk1
        · exact h.rowLen i hi
  · intro i hi
    rw [hR]
    split
    · exact ms_sorted2 _ _
    · split
      · exact ms_sorted2 _ _
      · split
        · exact ms_sorted1 _ _
        · exact h.sorted i hi
  · -- heap order except below `y`
    intro j hj hjB hjy
    rw [hR, hR, if_neg hjy]
    by_cases hjpx : (j - 1) / 2 = x
    · rw [if_pos hjpx, if_neg (by omega), if_neg (by omega), if_neg (by omega)]
      obtain ⟨a1, a2⟩ := hXc j hj hjB hjpx
      intro e he z hz
      rcases ms_mem2 _ _ he with h' | h'
      · exact a1 e h' z hz
      · exact a2 e h' z hz
    · rw [if_neg hjpx]
      by_cases hjpi : (j - 1) / 2 = idx
      · rw [if_pos hjpi]
        by_cases hjy' : j = y
        · rw [if_pos hjy']; exact hkcy
        · rw [if_neg hjy', if_pos (by omega)]; exact hkcx
      · rw [if_neg hjpi, if_neg (by omega), if_neg (by omega)]
        by_cases hji : j = idx
        · rw [if_pos hji]; subst hji; exact hpar hj
        · rw [if_neg hji]; exact h.heap j hj hjB hjpi
  · -- parent of `y` is `idx`, bounded by the children of `y`
    intro hy0 c hc hcB hcy
    have hpy : (y - 1) / 2 = idx := by omega
    rw [hpy, hR, hR, if_neg (by omega), if_neg (by omega), if_pos rfl, if_neg (by omega),
      if_neg (by omega), if_neg (by omega)]
    exact ms_lo_le_of_right _ _ (by omega) (hYc c hc hcB hcy)
  · intro i hi hiB
    rw [hR]
    by_cases hr : 2 * idx + 2 ≤ hs
    · rw [if_neg (by omega), if_neg (by omega), if_neg (by omega)]; exact h.empty i hi hiB
    · have hinf : RowInf (R S (2 * idx + 2)) := h.empty _ (by omega) (by omega)
      have hx := hsel hinf
      rw [if_neg (by omega)]
      split
      · rw [rowInf_iff_count]
        show nFinite (mergeSplit _ _).2 = 0
        rw [(ms_fin_first _ _).2, hl1, rowFull_iff_count.1 hfl, rowInf_iff_count.1 hinf, hl1]; omega
      · rw [if_neg (by omega)]; exact h.empty i hi hiB
  · intro i hi
    rw [hR]
    split
    · exact hfk.2
    · split
      · rename_i hix
        by_cases hr : 2 * idx + 2 ≤ hs
        · have hfr := h.full _ hr
          intro e he
          rcases ms_mem2 _ _ he with h' | h'
          · exact hfl e h'
          · exact hfr e h'
        · have := hsel (h.empty _ (by omega) (by omega))
          omega
      · split
        · exact hfk.1
        · exact h.full i hi
  · rw [hR, if_neg (by omega), if_neg (by omega)]
    split
    · rename_i h0
      have := h.bufGe
      rw [h0] at this
      exact ms_lo_le_of_left _ _ this
    · exact h.bufGe
  · intro p
    have e1 := count_set p (rows := S) (i := idx) (by omega) m'.1
    have e2 := count_set p (rows := S.set idx m'.1) (i := x) (by simp; omega) m.2
    have e3 := count_set p (rows := (S.set idx m'.1).set x m.2) (i := y) (by simp; omega) m'.2
    rw [R_set (by simp; omega), if_neg (by omega), R_set (by omega), if_neg hyi] at e3
    rw [R_set (by omega), if_neg hxi] at e2
    have c1 := ms_count (R S (2 * idx + 1)) (R S (2 * idx + 2)) p
    have c2 := ms_count (R S idx) m.1 p
    have hsum : (R S x).countP p + (R S y).countP p =
        (R S (2 * idx + 1)).countP p + (R S (2 * idx + 2)).countP p := by
      rcases hxy with ⟨rfl, rfl⟩ | ⟨rfl, rfl⟩ <;> omega
    have d1 : m.1.countP p + m.2.countP p = (R S (2 * idx + 1)).countP p + (R S (2 * idx + 2)).countP p := c1
    have d2 : m'.1.countP p + m'.2.countP p = (R S idx).countP p + m.1.countP p := c2
    omega

theorem scatterRows_cons (rows : List (List (K × V))) (u : Nat × List (K × V))
    (us : List (Nat × List (K × V))) (h : u.1 < rows.length) :
    scatterRows rows (u :: us) = scatterRows (rows.set u.1 u.2) us := by
  show List.foldl _ _ _ = _
  rw [List.foldl_cons, if_pos h]; rfl

theorem R_scatter_of_notMem (rows : List (List (K × V))) (upd : List (Nat × List (K × V))) (j : Nat)
    (h : ∀ u ∈ upd, u.1 ≠ j) : R (scatterRows rows upd) j = R rows j := by
  induction upd generalizing rows with
  | nil => rfl
  | cons u us ih =>
    by_cases hl : u.1 < rows.length
    · rw [scatterRows_cons _ _ _ hl, ih _ (fun v hv => h v (by simp [hv])), R_set hl,
        if_neg (fun e => h u (by simp) e.symm)]
    · have : scatterRows rows (u :: us) = scatterRows rows us := by
        show List.foldl _ _ _ = _
        rw [List.foldl_cons, if_neg hl]; rfl
      rw [this, ih _ (fun v hv => h v (by simp [hv]))]

theorem firstKey_mem {r : List (K × V)} (h : r ≠ []) : ∃ x ∈ r, firstKey r = x.1 := by
  cases r with
  | nil => exact absurd rfl h
  | cons y ys => exact ⟨y, by simp, by simp [firstKey]⟩

/-- The sift-down loop terminates within its fuel and restores the heap. -/
theorem siftLoop_spec {n B hs : Nat} {buf : List (K × V)} (rows0 : List (List (K × V)))
    (hn : 0 < n) (hhs : hs + 1 < B) (hlen0 : rows0.length = B)
    (hrl0 : ∀ i, i < B → (R rows0 i).length = n)
    (hempty0 : ∀ i, hs < i → i < B → RowInf (R rows0 i))
    (fuel idx : Nat) (cur : List (K × V)) (upd : List (Nat × List (K × V)))
    (hfuel : B.log2 + 1 ≤ fuel + upd.length / 2 ∧ 0 < fuel)
    (hdepth : 2 ^ (upd.length / 2) ≤ idx + 1) (heven : upd.length % 2 = 0)
    (hu : ∀ u ∈ upd, u.1 < B ∧ u.1 < 2 * idx + 1 ∧ u.1 ≠ idx) (hnd : (upd.map Prod.fst).Nodup)
    (hS : SInv n B hs buf (scatterRows rows0 (upd ++ [(idx, cur)])) idx)
    (hcur : R (scatterRows rows0 (upd ++ [(idx, cur)])) idx = cur) :
    ∃ idx' cur' upd', siftLoop rows0 fuel idx cur upd = some (idx', cur', upd') ∧
      (upd' ++ [(idx', cur')]).length ≤ 2 * (B.log2 + 1) + 1 ∧
      ((upd' ++ [(idx', cur')]).map Prod.fst).Nodup ∧
      Shape n B (scatterRows rows0 (upd' ++ [(idx', cur')])) ∧
      (∀ i, hs < i → i < B → RowInf (R (scatterRows rows0 (upd' ++ [(idx', cur')])) i)) ∧
      (∀ i, i ≤ hs → RowFull (R (scatterRows rows0 (upd' ++ [(idx', cur')])) i)) ∧
      rowLe (R (scatterRows rows0 (upd' ++ [(idx', cur')])) 0) buf ∧
      ∀ p, (scatterRows rows0 (upd' ++ [(idx', cur')])).flatten.countP p =
        (scatterRows rows0 (upd ++ [(idx, cur)])).flatten.countP p := by
  induction fuel generalizing idx cur upd with
  | zero => omega
  | succ fuel ih =>
    have hidx := hS.idxLt
    have hcurlen : cur.length = n := by rw [← hcur]; exact hS.rowLen _ hidx
    have hcurne : cur ≠ [] := by intro he; rw [he] at hcurlen; simp at hcurlen; omega
    have hcursorted : RowSorted cur := by rw [← hcur]; exact hS.sorted _ hidx
    have hdepthB : 2 ^ (upd.length / 2) ≤ B := by omega
    have hlog : upd.length / 2 ≤ B.log2 := (Nat.le_log2 (by omega)).2 hdepthB
    -- rows read by the loop are the rows of the pending store
    have hread : ∀ c, 2 * idx + 1 ≤ c → c < B →
        rowAt rows0 c = R (scatterRows rows0 (upd ++ [(idx, cur)])) c := by
      intro c hc hcB
      rw [rowAt_of_lt (by omega), R_scatter_of_notMem]
      intro u hu'
      rcases List.mem_append.1 hu' with h' | h'
      · have := hu u h'; omega
      · simp at h'; rw [h']; simp only; omega
    rw [siftLoop]
    simp only [show idx * 2 + 1 = 2 * idx + 1 by omega, show idx * 2 + 2 = 2 * idx + 2 by omega]
    have hminL : KeyCmp.le (if KeyCmp.le (firstKey (rowAt rows0 (2 * idx + 1))) (firstKey (rowAt rows0 (2 * idx + 2)))
        then firstKey (rowAt rows0 (2 * idx + 1)) else firstKey (rowAt rows0 (2 * idx + 2)))
        (firstKey (rowAt rows0 (2 * idx + 1))) = true ∧
        KeyCmp.le (if KeyCmp.le (firstKey (rowAt rows0 (2 * idx + 1))) (firstKey (rowAt rows0 (2 * idx + 2)))
        then firstKey (rowAt rows0 (2 * idx + 1)) else firstKey (rowAt rows0 (2 * idx + 2)))
        (firstKey (rowAt rows0 (2 * idx + 2))) = true := by
      split
      · rename_i hh; exact ⟨KeyLE.refl _, hh⟩
      · rename_i hh; exact ⟨KeyLE.le_of_not_le (by simpa using hh), KeyLE.refl _⟩
    generalize hminv : (if KeyCmp.le (firstKey (rowAt rows0 (2 * idx + 1))) (firstKey (rowAt rows0 (2 * idx + 2)))
        then firstKey (rowAt rows0 (2 * idx + 1)) else firstKey (rowAt rows0 (2 * idx + 2))) = mn at *
    split
    · -- the loop stops
      rename_i hstop
      refine ⟨idx, cur, upd, rfl, ?_, ?_, ?_, hS.empty, hS.full, hS.bufGe, fun _ => rfl⟩
      · simp; omega
      · rw [List.map_append, List.nodup_append]
        refine ⟨hnd, by simp, ?_⟩
        intro a ha b hb
        rw [List.mem_map] at ha
        obtain ⟨u, hu', rfl⟩ := ha
        simp at hb; rw [hb]; exact (hu u hu').2.2
      · refine ⟨hS.len, hS.rowLen, hS.sorted, ?_⟩
        intro j hj hjB
        by_cases hp : (j - 1) / 2 = idx
        · rw [hp, hcur]
          intro e he z hz
          have h1 : KeyCmp.le e.1 mn = true := le_trans' (lastKey_max hcursorted e he) hstop
          have hjj : j = 2 * idx + 1 ∨ j = 2 * idx + 2 := by omega
          have hz' := firstKey_min (hS.sorted j hjB) z hz
          rw [← hread j (by omega) hjB] at hz'
          rcases hjj with h' | h'
          · rw [h'] at hz'; exact le_trans' h1 (le_trans' hminL.1 hz')
          · rw [h'] at hz'; exact le_trans' h1 (le_trans' hminL.2 hz')
        · exact hS.heap j hj hjB hp
    · -- one more iteration
      rename_i hgo
      have hleft : 2 * idx + 1 ≤ hs := by
        false_or_by_contra
        rename_i hnot
        apply hgo
        have hinfrow : ∀ c, 2 * idx + 1 ≤ c → RowInf (rowAt rows0 c) ∧ rowAt rows0 c ≠ [] := by
          intro c hc
          by_cases hcB : c < B
          · rw [rowAt_of_lt (by omega)]
            refine ⟨hempty0 c (by omega) hcB, ?_⟩
            intro he; have := hrl0 c hcB; rw [he] at this; simp at this; omega
          · rw [rowAt_of_ge (by omega), hlen0]
            refine ⟨hempty0 (B - 1) (by omega) (by omega), ?_⟩
            intro he; have := hrl0 (B - 1) (by omega); rw [he] at this; simp at this; omega
        have hge : ∀ c, 2 * idx + 1 ≤ c → KeyCmp.le (lastKey cur) (firstKey (rowAt rows0 c)) = true := by
          intro c hc
          obtain ⟨h1, h2⟩ := hinfrow c hc
          obtain ⟨w, hw, hwk⟩ := firstKey_mem h2
          rw [hwk]
          exact le_trans' (KeyTop.le_inf _) ((fin_false_iff w).1 (h1 w hw))
        rw [← hminv]
        split
        · exact hge _ (by omega)
        · exact hge _ (by omega)
      have hL := hread (2 * idx + 1) (by omega) (by omega)
      have hRr := hread (2 * idx + 2) (by omega) (by omega)
      rw [hL, hRr]
      generalize hSS : scatterRows rows0 (upd ++ [(idx, cur)]) = S at *
      have hlS := hS.len
      have hneL : R S (2 * idx + 1) ≠ [] := by
        intro he; have := hS.rowLen (2 * idx + 1) (by omega); rw [he] at this; simp at this; omega
      have hneR : R S (2 * idx + 2) ≠ [] := by
        intro he; have := hS.rowLen (2 * idx + 2) (by omega); rw [he] at this; simp at this; omega
      have hsetS : ∀ kc, (scatterRows rows0 upd).set idx kc = S.set idx kc := by
        intro kc
        rw [← hSS, scatterRows_append]
        have : scatterRows (scatterRows rows0 upd) [(idx, cur)] = (scatterRows rows0 upd).set idx cur := by
          rw [scatterRows_cons _ _ _ (by rw [scatterRows_length]; simp only; omega)]; rfl
        rw [this, List.set_set]
      -- common continuation
      have cont : ∀ x y, ((x = 2 * idx + 1 ∧ y = 2 * idx + 2) ∨ (x = 2 * idx + 2 ∧ y = 2 * idx + 1)) →
          (∀ e ∈ R S y, ∃ f ∈ R S x, KeyCmp.le e.1 f.1 = true) →
          (RowInf (R S (2 * idx + 2)) → x = 2 * idx + 2) →
          ∃ idx' cur' upd', siftLoop rows0 fuel y
              (mergeSplit cur (mergeSplit (R S (2 * idx + 1)) (R S (2 * idx + 2))).1).2
              (upd ++ [(idx, (mergeSplit cur (mergeSplit (R S (2 * idx + 1)) (R S (2 * idx + 2))).1).1),
                (x, (mergeSplit (R S (2 * idx + 1)) (R S (2 * idx + 2))).2)]) = some (idx', cur', upd') ∧
            (upd' ++ [(idx', cur')]).length ≤ 2 * (B.log2 + 1) + 1 ∧
            ((upd' ++ [(idx', cur')]).map Prod.fst).Nodup ∧
            Shape n B (scatterRows rows0 (upd' ++ [(idx', cur')])) ∧
            (∀ i, hs < i → i < B → RowInf (R (scatterRows rows0 (upd' ++ [(idx', cur')])) i)) ∧
            (∀ i, i ≤ hs → RowFull (R (scatterRows rows0 (upd' ++ [(idx', cur')])) i)) ∧
            rowLe (R (scatterRows rows0 (upd' ++ [(idx', cur')])) 0) buf ∧
            ∀ p, (scatterRows rows0 (upd' ++ [(idx', cur')])).flatten.countP p = S.flatten.countP p := by
        intro x y hxy hmax hsel
        have hst := hS.step hn hhs hleft hxy hmax hsel
        simp only [hcur] at hst
        obtain ⟨hst1, hst2⟩ := hst
        generalize hkc : (mergeSplit cur (mergeSplit (R S (2 * idx + 1)) (R S (2 * idx + 2))).1).1 = kc at *
        generalize hky : (mergeSplit cur (mergeSplit (R S (2 * idx + 1)) (R S (2 * idx + 2))).1).2 = ky at *
        generalize hkx : (mergeSplit (R S (2 * idx + 1)) (R S (2 * idx + 2))).2 = kx at *
        have hS' : scatterRows rows0 ((upd ++ [(idx, kc), (x, kx)]) ++ [(y, ky)]) =
            ((S.set idx kc).set x kx).set y ky := by
          have hl : (scatterRows rows0 upd).length = B := by rw [scatterRows_length]; exact hlen0
          rw [List.append_assoc, scatterRows_append]
          simp only [List.cons_append, List.nil_append]
          rw [scatterRows_cons _ _ _ (by simp only; omega), scatterRows_cons _ _ _ (by simp; omega),
            scatterRows_cons _ _ _ (by simp; omega)]
          simp only [scatterRows, List.foldl_nil, ← hsetS]
        have hlen2 : (upd ++ [(idx, kc), (x, kx)]).length / 2 = upd.length / 2 + 1 := by
          simp
        have hpow : 2 ^ (upd.length / 2 + 1) ≤ y + 1 := by rw [Nat.pow_succ]; omega
        have hlogy : upd.length / 2 + 1 ≤ B.log2 := by
          apply (Nat.le_log2 (by omega)).2; omega
        have := ih y ky (upd ++ [(idx, kc), (x, kx)]) (by rw [hlen2]; omega)
          (by rw [hlen2]; exact hpow) (by simp; omega)
          (by
            intro u hu'
            rcases List.mem_append.1 hu' with h' | h'
            · have := hu u h'; omega
            · simp at h'
              rcases h' with rfl | rfl
              · simp only; omega
              · simp only; omega)
          (by
            rw [List.map_append, List.nodup_append]
            refine ⟨hnd, ?_, ?_⟩
            · simp; omega
            · intro a ha b hb
              rw [List.mem_map] at ha
              obtain ⟨u, hu', rfl⟩ := ha
              have := hu u hu'
              simp at hb
              omega)
          (by rw [hS']; exact hst1)
          (by rw [hS', R_set (by simp; omega), if_pos rfl])
        obtain ⟨idx', cur', upd', r1, r2, r3, r4, r5, r6, r7, r8⟩ := this
        refine ⟨idx', cur', upd', r1, r2, r3, r4, r5, r6, r7, ?_⟩
        intro p
        rw [r8 p, hS', hst2 p]
      split
      · rename_i hle
        simp only
        apply cont (2 * idx + 2) (2 * idx + 1) (Or.inr ⟨rfl, rfl⟩)
        · intro e he
          obtain ⟨w, hw, hwk⟩ := lastKey_mem hneR
          refine ⟨w, hw, ?_⟩
          rw [← hwk]
          exact le_trans' (lastKey_max (hS.sorted _ (by omega)) e he) hle
        · intro _; rfl
      · rename_i hle
        simp only
        have hge : KeyCmp.le (lastKey (R S (2 * idx + 2))) (lastKey (R S (2 * idx + 1))) = true :=
          KeyLE.le_of_not_le (by simpa using hle)
        apply cont (2 * idx + 1) (2 * idx + 2) (Or.inl ⟨rfl, rfl⟩)
        · intro e he
          obtain ⟨w, hw, hwk⟩ := lastKey_mem hneL
          refine ⟨w, hw, ?_⟩
          rw [← hwk]
          exact le_trans' (lastKey_max (hS.sorted _ (by omega)) e he) hge
        · intro hinf
          exfalso; apply hle
          obtain ⟨w, hw, hwk⟩ := lastKey_mem hneR
          rw [hwk]
          exact le_trans' (KeyTop.le_inf _) ((fin_false_iff w).1 (hinf w hw))

end Bgpq
