import Verif.BitpackProps

/-!
# C41: the Pallas packing kernel computes the same words as the XLA one
-/

namespace Bitpack

open SortGroup

theorem packProgram_getElem? (vals : List Nat) (t : Tables) (tile : Nat) (out : List Nat) (blk : Nat)
    (hout : out.length = t.rows.length) (w : Nat) :
    (packProgram vals t tile out blk).length = t.rows.length ∧
    (packProgram vals t tile out blk)[w]? =
      if blk * tile ≤ w ∧ w < blk * tile + tile ∧ w < t.rows.length then
        some (packWord vals t.totalValues (t.rows.getD w []))
      else out[w]? := by
  have key : ∀ m, m ≤ tile →
      ((List.range m).foldl (fun out off =>
        if blk * tile + off < t.rows.length then
          out.set (blk * tile + off) (packWord vals t.totalValues (t.rows.getD (blk * tile + off) [])) else out) out).length =
        t.rows.length ∧
      ((List.range m).foldl (fun out off =>
        if blk * tile + off < t.rows.length then
          out.set (blk * tile + off) (packWord vals t.totalValues (t.rows.getD (blk * tile + off) [])) else out) out)[w]? =
        if blk * tile ≤ w ∧ w < blk * tile + m ∧ w < t.rows.length then
          some (packWord vals t.totalValues (t.rows.getD w [])) else out[w]? := by
    intro m
    induction m with
    | zero =>
      intro _
      refine ⟨hout, ?_⟩
      rw [if_neg (by omega)]; rfl
    | succ m ih =>
      intro hm
      obtain ⟨h1, h2⟩ := ih (by omega)
      rw [List.range_succ, List.foldl_append]
      generalize List.foldl _ out (List.range m) = o at h1 h2 ⊢
      simp only [List.foldl_cons, List.foldl_nil]
      by_cases hc : blk * tile + m < t.rows.length
      · rw [if_pos hc]
        refine ⟨by rw [List.length_set]; exact h1, ?_⟩
        rw [List.getElem?_set, h2]
        by_cases hw : blk * tile + m = w
        · subst hw
          rw [if_pos rfl, if_pos (by omega), if_pos (by omega)]
        · rw [if_neg hw]
          by_cases hr : blk * tile ≤ w ∧ w < blk * tile + m ∧ w < t.rows.length
          · rw [if_pos hr, if_pos (by omega)]
          · rw [if_neg hr, if_neg (by omega)]
      · rw [if_neg hc]
        refine ⟨h1, ?_⟩
        rw [h2]
        by_cases hr : blk * tile ≤ w ∧ w < blk * tile + m ∧ w < t.rows.length
        · rw [if_pos hr, if_pos (by omega)]
        · rw [if_neg hr, if_neg (by omega)]
  exact key tile (Nat.le_refl _)

/-- **C41.**  For every contribution table, row of values, tile size, initial output buffer and order in which the programs
of the grid run (each at least once), the Pallas kernel and the XLA kernel return the same words. -/
theorem pack_kernels_agree (vals : List Nat) (t : Tables) {tile : Nat} (ht : 0 < tile) (init : List Nat)
    (hinit : init.length = t.rows.length) (order : List Nat) (hall : ∀ b < packGrid t tile, b ∈ order) :
    packPallas vals t tile init order = packXla vals t := by
  unfold packPallas packXla
  split
  · rfl
  split
  · rfl
  have key : ∀ (order : List Nat) (o : List Nat), o.length = t.rows.length →
      (order.foldl (packProgram vals t tile) o).length = t.rows.length ∧
      ∀ w < t.rows.length, (w / tile ∈ order ∨ o[w]? = some (packWord vals t.totalValues (t.rows.getD w []))) →
        (order.foldl (packProgram vals t tile) o)[w]? = some (packWord vals t.totalValues (t.rows.getD w [])) := by
    intro order
    induction order with
    | nil =>
      intro o ho
      refine ⟨ho, ?_⟩
      rintro w hw (h | h)
      · cases h
      · exact h
    | cons b order ih =>
      intro o ho
      rw [List.foldl_cons]
      obtain ⟨h1, h2⟩ := ih (packProgram vals t tile o b) (packProgram_getElem? vals t tile o b ho 0).1
      refine ⟨h1, ?_⟩
      intro w hw h
      apply h2 w hw
      rw [(packProgram_getElem? vals t tile o b ho w).2]
      have hb : b * tile ≤ w ∧ w < b * tile + tile ↔ w / tile = b := by
        rw [← Nat.succ_mul]
        constructor
        · rintro ⟨h1, h2⟩; exact Nat.div_eq_of_lt_le h1 h2
        · rintro rfl
          exact ⟨Nat.div_mul_le_self _ _, Nat.lt_mul_of_div_lt (Nat.lt_succ_self _) ht⟩
      by_cases hwb : w / tile = b
      · right
        rw [if_pos ⟨(hb.2 hwb).1, (hb.2 hwb).2, hw⟩]
      · rcases h with h | h
        · left
          rcases List.mem_cons.1 h with h | h
          · exact absurd h hwb
          · exact h
        · right
          split
          · rfl
          · exact h
  obtain ⟨h1, h2⟩ := key order init hinit
  apply List.ext_getElem?
  intro w
  by_cases hw : w < t.rows.length
  · rw [h2 w hw (Or.inl (hall _ ?_)), List.getElem?_map, List.getD_eq_getElem?_getD, List.getElem?_eq_getElem hw]
    · rfl
    · unfold packGrid
      rw [Nat.div_lt_iff_lt_mul ht]
      have h1 := Nat.div_add_mod (t.rows.length + tile - 1) tile
      have h2 := Nat.mod_lt (t.rows.length + tile - 1) ht
      rw [Nat.mul_comm] at h1
      omega
  · rw [List.getElem?_eq_none (by omega), List.getElem?_eq_none (by simp; omega)]

/-- Non-vacuity: two 20-bit values and one 5-bit value in two words, tile 4 (larger than the number of words), a buffer full
of garbage. -/
example :
    let t := buildTables [⟨["a"], 20, 2, 0⟩, ⟨["b"], 5, 1, 40⟩] 2
    packXla [0xFFFFF, 0x12345, 9] t = [0x345FFFFF, 0x912] ∧
    packPallas [0xFFFFF, 0x12345, 9] t 1 [7, 7] [1, 0] = [0x345FFFFF, 0x912] ∧
    packPallas [0xFFFFF, 0x12345, 9] t 4 [7, 7] [0] = [0x345FFFFF, 0x912] := by decide +kernel

end Bitpack
