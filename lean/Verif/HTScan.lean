import Verif.HashTableModel

/-!
# Lookup for an arbitrary `==`

Lemmas about the lookup loop that assume nothing about the equality of the value class (it need not be reflexive: floats).
-/

namespace HashTable

open Jax SortGroup Dedupe

variable {α : Type u} [BEq α]

theorem any_id_false {l : List Bool} (h : ∀ b ∈ l, b = false) : l.any id = false := by
  induction l with
  | nil => rfl
  | cons b l ih =>
    rw [List.any_cons, ih (fun b' hb => h b' (List.mem_cons_of_mem _ hb)), h b (List.mem_cons_self ..)]; rfl

/-- Nothing is found in a bucket if every slot below the limit compares different from the item. -/
theorem scan_noneB (H : Hasher α) (T : Table α) (x : α) (b : Nat)
    (h : ∀ s, s < T.bs → s < limit T b → (gatherU T.table (flat T b s) == some x) = false) :
    (scanBucket H T x b).1 = false := by
  have key : ∀ s, (fpMatches H T x b).getD s false = true → (gatherU T.table (flat T b s) == some x) = false := by
    intro s hs
    have hlt : s < T.bs := by
      apply Classical.byContradiction
      intro hc
      rw [List.getD_eq_getElem?_getD, fpMatches, tab_getElem?, if_neg hc] at hs
      cases hs
    rw [fpMatches, tab_getD _ _ hlt, Bool.and_eq_true] at hs
    exact h s hlt (of_decide_eq_true hs.1)
  have hfast : ((fpMatches H T x b).any id && (gatherU T.table (flat T b (argmaxB (fpMatches H T x b))) == some x)) =
      false := by
    by_cases ha : (fpMatches H T x b).any id = true
    · have hm : (fpMatches H T x b).getD (argmaxB (fpMatches H T x b)) false = true := by
        unfold argmaxB
        rw [if_pos ha]
        have hlt : (fpMatches H T x b).findIdx id < (fpMatches H T x b).length := by
          rw [List.findIdx_lt_length]
          obtain ⟨y, hy, hy'⟩ := List.any_eq_true.1 ha
          exact ⟨y, hy, hy'⟩
        have := List.findIdx_getElem (w := hlt)
        rw [List.getD_eq_getElem?_getD, List.getElem?_eq_getElem hlt]
        exact this
      have := key _ hm
      rw [ha, Bool.true_and]
      exact this
    · rw [Bool.not_eq_true] at ha
      rw [ha]; rfl
  have heq : (tab T.bs fun s => (tab T.bs fun s => (fpMatches H T x b).getD s false &&
      (s != argmaxB (fpMatches H T x b))).getD s false && (gatherU T.table (flat T b s) == some x)).any id = false := by
    apply any_id_false
    intro v hv
    unfold tab at hv
    obtain ⟨s, hs, rfl⟩ := List.mem_map.1 hv
    have hs' : s < T.bs := List.mem_range.1 hs
    have e := tab_getD (fun s => (fpMatches H T x b).getD s false && (s != argmaxB (fpMatches H T x b))) false hs'
    unfold tab at e
    rw [e]
    by_cases hm : (fpMatches H T x b).getD s false = true
    · rw [key s hm, Bool.and_false]
    · rw [Bool.not_eq_true] at hm
      rw [hm]; rfl
  unfold scanBucket
  dsimp only
  rw [hfast, heq]
  split <;> rfl

/-- The lookup loop stops in the first bucket if nothing is found there and it does not look full. -/
theorem lookup_stop (H : Hasher α) (T : Table α) (x : α) (hmp : 0 < T.maxProbes)
    (hs : (scanBucket H T x (start H T x)).1 = false) (hf : limit T (start H T x) ≠ T.bs) :
    lookupBucket H T x = ((start H T x, limit T (start H T x)), false) := by
  obtain ⟨m, hm⟩ : ∃ m, T.maxProbes = m + 1 := ⟨T.maxProbes - 1, by omega⟩
  unfold lookupBucket
  rw [hm, lookupLoop]
  rw [if_pos (by rw [hm]; simp)]
  dsimp only
  rw [hs, beq_false_of_ne hf]
  simp only [Bool.not_false, Bool.or_true, if_true, Bool.false_eq_true, if_false]
  unfold lookupLoop
  simp

/-- A lookup whose comparisons all fail reports "not found", whatever the number of probes. -/
theorem lookupLoop_none (H : Hasher α) (T : Table α) (x : α) (h : ∀ b, (scanBucket H T x b).1 = false) :
    ∀ (fuel b s probes : Nat), (lookupLoop H T x fuel b s false probes).2 = false := by
  intro fuel
  induction fuel with
  | zero => intro b s p; rfl
  | succ fuel ih =>
    intro b s p
    rw [lookupLoop]
    by_cases hc : (!false && decide (p < T.maxProbes)) = true
    · rw [if_pos hc]
      dsimp only
      rw [h b]
      exact ih _ _ _
    · rw [if_neg hc]

end HashTable
