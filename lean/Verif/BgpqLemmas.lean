import Verif.BgpqModel
import Verif.MergeProps

/-!
# Lemmas about the BGPQ model: merging rows, the heap invariant
-/

set_option linter.unusedSectionVars false

namespace Bgpq

open MergeModel

variable {K : Type u} [KeyInf K] {V : Type v}

/-- Every key of `a` is `≤` every key of `b`. -/
def rowLe (a b : List (K × V)) : Prop := ∀ x ∈ a, ∀ y ∈ b, KeyCmp.le x.1 y.1 = true
/-- A row is sorted by key. -/
def RowSorted (a : List (K × V)) : Prop := a.Pairwise (fun x y => KeyCmp.le x.1 y.1 = true)
def RowFull (a : List (K × V)) : Prop := ∀ x ∈ a, fin x = true
def RowInf (a : List (K × V)) : Prop := ∀ x ∈ a, fin x = false

theorem le_trans' {a b c : K} (h1 : KeyCmp.le a b = true) (h2 : KeyCmp.le b c = true) :
    KeyCmp.le a c = true := KeyLE.trans a b c h1 h2

theorem fin_false_iff (x : K × V) : fin x = false ↔ KeyCmp.le KeyPad.inf x.1 = true := by
  unfold fin; rw [KeyInf.isFin_eq]; simp

theorem fin_of_le {x y : K × V} (h : KeyCmp.le x.1 y.1 = true) (hy : fin y = true) : fin x = true := by
  cases hx : fin x with
  | true => rfl
  | false =>
    have := le_trans' ((fin_false_iff x).1 hx) h
    rw [← fin_false_iff] at this; rw [this] at hy; simp at hy

theorem le_of_not_fin {x y : K × V} (hy : fin y = false) : KeyCmp.le x.1 y.1 = true :=
  le_trans' (KeyTop.le_inf x.1) ((fin_false_iff y).1 hy)

theorem rowLe_inf {a b : List (K × V)} (h : RowInf b) : rowLe a b :=
  fun _ _ y hy => le_of_not_fin (h y hy)

theorem rowInf_map_inf (l : List (K × V)) : RowInf (l.map fun p => ((KeyPad.inf : K), p.2)) := by
  intro x hx
  rw [List.mem_map] at hx
  obtain ⟨p, _, rfl⟩ := hx
  rw [fin_false_iff]; exact KeyLE.refl _

theorem rowInf_replicate (n : Nat) (d : V) : RowInf (List.replicate n ((KeyPad.inf : K), d)) := by
  intro x hx
  rw [List.eq_of_mem_replicate hx, fin_false_iff]; exact KeyLE.refl _

theorem rowSorted_of_inf {a : List (K × V)} (h : RowInf a) : RowSorted a :=
  List.pairwise_of_forall_mem_list (fun _ _ y hy => le_of_not_fin (h y hy))

theorem rowInf_iff_count {a : List (K × V)} : RowInf a ↔ nFinite a = 0 := by
  unfold RowInf nFinite; rw [List.countP_eq_zero]
  constructor
  · intro h x hx; simp [h x hx]
  · intro h x hx; simpa using h x hx

theorem rowFull_iff_count {a : List (K × V)} : RowFull a ↔ nFinite a = a.length := by
  unfold RowFull nFinite; rw [List.countP_eq_length]

/-! ## `mergeSplit` -/

section
variable (a b : List (K × V))

theorem ms_len1 : (mergeSplit a b).1.length = a.length := by simp [mergeSplit, sortKeyVal_eq]
theorem ms_len2 : (mergeSplit a b).2.length = b.length := by simp [mergeSplit, sortKeyVal_eq]

theorem ms_count (p : K × V → Bool) :
    (mergeSplit a b).1.countP p + (mergeSplit a b).2.countP p = a.countP p + b.countP p := by
  rw [← List.countP_append, ← List.countP_append]; exact (mergeSplit_perm a b).countP_eq p

theorem ms_sorted1 : RowSorted (mergeSplit a b).1 := (List.pairwise_append.1 (mergeSplit_sorted a b)).1
theorem ms_sorted2 : RowSorted (mergeSplit a b).2 := (List.pairwise_append.1 (mergeSplit_sorted a b)).2.1
theorem ms_le : rowLe (mergeSplit a b).1 (mergeSplit a b).2 :=
  (List.pairwise_append.1 (mergeSplit_sorted a b)).2.2

theorem ms_mem1 {x : K × V} (h : x ∈ (mergeSplit a b).1) : x ∈ a ∨ x ∈ b := by
  rw [← List.mem_append]
  exact (mergeSplit_perm a b).mem_iff.1 (List.mem_append_left _ h)
theorem ms_mem2 {x : K × V} (h : x ∈ (mergeSplit a b).2) : x ∈ a ∨ x ∈ b := by
  rw [← List.mem_append]
  exact (mergeSplit_perm a b).mem_iff.1 (List.mem_append_right _ h)

/-- The first output consists of the `a.length` smallest elements: whatever bounds `a.length`
elements of the input from above bounds it. -/
theorem ms_lo_bound (z : K) (h : a.length ≤ (a ++ b).countP (fun e => KeyCmp.le e.1 z)) :
    ∀ x ∈ (mergeSplit a b).1, KeyCmp.le x.1 z = true := by
  intro x hx
  cases hxz : KeyCmp.le x.1 z with
  | true => rfl
  | false =>
    have hc := ms_count a b (fun e => KeyCmp.le e.1 z)
    rw [List.countP_append] at h
    have h2 : (mergeSplit a b).2.countP (fun e => KeyCmp.le e.1 z) = 0 := by
      rw [List.countP_eq_zero]
      intro y hy hyz
      have := le_trans' (ms_le a b x hx y hy) hyz
      rw [this] at hxz; simp at hxz
    have h1 : (mergeSplit a b).1.countP (fun e => KeyCmp.le e.1 z) = (mergeSplit a b).1.length := by
      have := List.countP_le_length (p := fun e => KeyCmp.le e.1 z) (l := (mergeSplit a b).1)
      rw [ms_len1] at this ⊢
      omega
    have := List.countP_eq_length.1 h1 x hx
    rw [this] at hxz; simp at hxz

theorem ms_lo_le_of_left {c : List (K × V)} (h : rowLe a c) : rowLe (mergeSplit a b).1 c := by
  intro x hx z hz
  apply ms_lo_bound a b z.1 _ x hx
  rw [List.countP_append]
  have : a.countP (fun e => KeyCmp.le e.1 z.1) = a.length :=
    List.countP_eq_length.2 (fun y hy => h y hy z hz)
  omega

theorem ms_lo_le_of_right {c : List (K × V)} (hl : a.length ≤ b.length) (h : rowLe b c) :
    rowLe (mergeSplit a b).1 c := by
  intro x hx z hz
  apply ms_lo_bound a b z.1 _ x hx
  rw [List.countP_append]
  have : b.countP (fun e => KeyCmp.le e.1 z.1) = b.length :=
    List.countP_eq_length.2 (fun y hy => h y hy z hz)
  omega

theorem ms_ge {c : List (K × V)} (h1 : rowLe c a) (h2 : rowLe c b) :
    rowLe c (mergeSplit a b).1 ∧ rowLe c (mergeSplit a b).2 := by
  constructor
  · intro x hx y hy
    rcases ms_mem1 a b hy with h | h
    · exact h1 x hx y h
    · exact h2 x hx y h
  · intro x hx y hy
    rcases ms_mem2 a b hy with h | h
    · exact h1 x hx y h
    · exact h2 x hx y h

/-- Finite elements go first. -/
theorem ms_fin_first : nFinite (mergeSplit a b).1 = min a.length (nFinite a + nFinite b) ∧
    nFinite (mergeSplit a b).2 = (nFinite a + nFinite b) - a.length := by
  have hc := ms_count a b fin
  have hl := List.countP_le_length (p := (fin : K × V → Bool)) (l := (mergeSplit a b).1)
  rw [ms_len1] at hl
  have hor : nFinite (mergeSplit a b).1 = a.length ∨ nFinite (mergeSplit a b).2 = 0 := by
    by_cases h : nFinite (mergeSplit a b).2 = 0
    · exact Or.inr h
    · left
      have : ¬ RowInf (mergeSplit a b).2 := fun hh => h (rowInf_iff_count.1 hh)
      unfold RowInf at this
      have hex : ∃ y ∈ (mergeSplit a b).2, fin y = true := by
        false_or_by_contra
        rename_i hne
        apply this
        intro y hy
        cases hf : fin y with
        | false => rfl
        | true => exact absurd ⟨y, hy, hf⟩ hne
      obtain ⟨y, hy, hf⟩ := hex
      have := (rowFull_iff_count (a := (mergeSplit a b).1)).1
        (fun x hx => fin_of_le (ms_le a b x hx y hy) hf)
      rw [this, ms_len1]
  unfold nFinite at *
  omega

end

/-! ## Perm from counts -/

theorem perm_of_countP {α : Type u} {l m : List α} (h : ∀ p : α → Bool, l.countP p = m.countP p) :
    l.Perm m := by
  classical
  exact List.perm_iff_count.2 (fun a => by unfold List.count; exact h _)

/-! ## Rows -/

/-- The `i`-th row (index in range). -/
def R (rows : List (List (K × V))) (i : Nat) : List (K × V) := (rows[i]?).getD []

theorem rowAt_of_lt {rows : List (List (K × V))} {i : Nat} (h : i < rows.length) :
    rowAt rows i = R rows i := by
  unfold rowAt R; rw [Jax.gatherU_of_lt _ _ h]

theorem rowAt_of_ge {rows : List (List (K × V))} {i : Nat} (h : rows.length ≤ i + 1) :
    rowAt rows i = R rows (rows.length - 1) := by
  unfold rowAt R Jax.gatherU Jax.clampIdx
  congr 2; omega

theorem R_set {rows : List (List (K × V))} {i : Nat} (h : i < rows.length) (r : List (K × V)) (j : Nat) :
    R (rows.set i r) j = if j = i then r else R rows j := by
  unfold R
  rw [List.getElem?_set]
  by_cases hij : i = j
  · subst hij; simp [h]
  · rw [if_neg hij, if_neg (fun h => hij h.symm)]

theorem count_set (p : K × V → Bool) {rows : List (List (K × V))} {i : Nat} (h : i < rows.length)
    (r : List (K × V)) :
    (rows.set i r).flatten.countP p + (R rows i).countP p = rows.flatten.countP p + r.countP p := by
  induction rows generalizing i with
  | nil => simp at h
  | cons x xs ih =>
    cases i with
    | zero => simp [R, List.countP_append]; omega
    | succ i =>
      have := ih (i := i) (by simpa using h)
      simp only [List.set_cons_succ, List.flatten_cons, List.countP_append]
      have e : R (x :: xs) (i + 1) = R xs i := by simp [R]
      rw [e]; omega

/-! ## The invariant -/

/-- Invariant of the store part: shape, sorted rows, heap order, full/empty rows. -/
structure StoreInv (n B hs : Nat) (rows : List (List (K × V))) : Prop where
  len : rows.length = B
  rowLen : ∀ i, i < B → (R rows i).length = n
  sorted : ∀ i, i < B → RowSorted (R rows i)
  heap : ∀ j, 0 < j → j < B → rowLe (R rows ((j - 1) / 2)) (R rows j)
  hs_lt : hs < B
  empty : ∀ i, hs < i → i < B → RowInf (R rows i)
  full : 0 < hs → ∀ i, i ≤ hs → RowFull (R rows i)

structure Inv (h : Heap K V) : Prop where
  npos : 0 < h.batchSize
  store : StoreInv h.batchSize h.branchSize h.heapSize h.rows
  bufLen : h.buffer.length = h.batchSize - 1
  bufSorted : RowSorted h.buffer
  bufGe : rowLe (R h.rows 0) h.buffer
  bufSize : h.bufferSize = nFinite h.buffer

/-- All pairs held by the heap, `inf` padding included. -/
def allPairs (h : Heap K V) : List (K × V) := h.rows.flatten ++ h.buffer
/-- The contents: pairs with a finite key. -/
def contents (h : Heap K V) : List (K × V) := (allPairs h).filter fin

theorem maxDepth_spec (B : Nat) (hB : 0 < B) :
    B + 1 ≤ 2 ^ maxDepth B ∧ 2 ^ (maxDepth B - 1) < B + 1 := by
  unfold maxDepth
  have h1 := Nat.log2_self_le (n := B) (by omega)
  have h2 := Nat.lt_log2_self (n := B)
  constructor
  · omega
  · simp only [Nat.add_sub_cancel]; omega

theorem inv_build (total batch : Nat) (hb : 0 < batch) (ht : 0 < total) (d : V) :
    Inv (build total batch d : Heap K V) := by
  unfold build
  have hB : 0 < (if total % batch = 0 then total / batch else total / batch + 1) := by
    split
    · rename_i h
      have := Nat.div_add_mod total batch
      rw [h] at this
      rcases Nat.eq_zero_or_pos (total / batch) with h0 | h0
      · rw [h0] at this; omega
      · exact h0
    · exact Nat.succ_pos _
  have hR : ∀ i, R (List.replicate (if total % batch = 0 then total / batch else total / batch + 1)
      (List.replicate batch ((KeyPad.inf : K), d))) i =
      if i < (if total % batch = 0 then total / batch else total / batch + 1) then
        List.replicate batch ((KeyPad.inf : K), d) else [] := by
    intro i
    unfold R
    rw [List.getElem?_replicate]
    generalize (if total % batch = 0 then total / batch else total / batch + 1) = B
    split <;> rfl
  refine ⟨hb, ⟨?_, ?_, ?_, ?_, ?_, ?_, ?_⟩, ?_, ?_, ?_, ?_⟩
  · simp
  · intro i hi; dsimp only at *; rw [hR, if_pos hi]; simp
  · intro i hi; dsimp only at *; rw [hR, if_pos hi]; exact rowSorted_of_inf (rowInf_replicate _ _)
  · intro j hj hi; dsimp only at *; rw [hR j, if_pos hi]; exact rowLe_inf (rowInf_replicate _ _)
  · exact hB
  · intro i _ hi; dsimp only at *; rw [hR, if_pos hi]; exact rowInf_replicate _ _
  · intro h; simp at h
  · simp
  · exact rowSorted_of_inf (rowInf_replicate _ _)
  · exact rowLe_inf (rowInf_replicate _ _)
  · exact (rowInf_iff_count.1 (rowInf_replicate _ _)).symm

end Bgpq
