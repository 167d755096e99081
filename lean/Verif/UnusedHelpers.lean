import Verif.HTPlace

/-!
# C113: helpers that nothing in the package calls

`_next` (bgpq/_utils.py) and `_first_occurrence_mask` (hashtable/hash_utils.py) are importable and documented, but unused.
-/

namespace UnusedHelpers

open Jax SortGroup Dedupe

/-! ## Model -/

/-- `jax.lax.clz` of a `uint32`. -/
def clz (x : Nat) : Nat := if x = 0 then 32 else 31 - Nat.log2 x

/-- `_next(current, target)` (bgpq/_utils.py:66-89), in `uint32`; a shift by 32 or more gives 0. -/
def next (current target : Nat) : Nat :=
  let c := (current + 1) % 2 ^ 32
  let t := (target + 1) % 2 ^ 32
  let s := (clz c + 2 ^ 32 - clz t + 2 ^ 32 - 1) % 2 ^ 32
  ((if s < 32 then t / 2 ^ s else 0) + 2 ^ 32 - 1) % 2 ^ 32

/-- `_first_occurrence_mask(values, active, sentinel)` (hashtable/hash_utils.py:80-96).  `jnp.unique(…, return_index=True)` sorts stably and returns the positions of the
first element of each run, padded with the first of them (trusted); these are set to `True`. -/
def firstOccurrenceMask (values : List Nat) (active : List Bool) (snt : Nat) : List Bool :=
  let n := values.length
  let safe := fun i => if active.getD i false then values.getD i 0 else snt
  let sorted := stableSort (leBy safe) (List.range n)
  let mask := scatterSet (List.replicate n false) sorted (groupStarts (sameAll [leBy safe]) sorted)
  tab n fun i => mask.getD i false && active.getD i false

/-! ## Specification -/

/-- Node `t` is in the subtree of node `a` of the heap whose node `i` has the children `2i + 1` and `2i + 2`. -/
inductive Under (a : Nat) : Nat → Prop
  | here : Under a a
  | left {t : Nat} : Under a t → Under a (2 * t + 1)
  | right {t : Nat} : Under a t → Under a (2 * t + 2)

/-! ## `_next` -/

theorem under_div {a t : Nat} (h : Under a t) : ∃ k, (t + 1) / 2 ^ k = a + 1 := by
  induction h with
  | here => exact ⟨0, by simp⟩
  | @left t _ ih =>
    obtain ⟨k, hk⟩ := ih
    refine ⟨k + 1, ?_⟩
    rw [show 2 ^ (k + 1) = 2 * 2 ^ k by rw [Nat.pow_succ, Nat.mul_comm], ← Nat.div_div_eq_div_mul, show (2 * t + 1 + 1) / 2 = t + 1 by omega, hk]
  | @right t _ ih =>
    obtain ⟨k, hk⟩ := ih
    refine ⟨k + 1, ?_⟩
    rw [show 2 ^ (k + 1) = 2 * 2 ^ k by rw [Nat.pow_succ, Nat.mul_comm], ← Nat.div_div_eq_div_mul, show (2 * t + 2 + 1) / 2 = t + 1 by omega, hk]

theorem div_under : ∀ {k t a : Nat}, (t + 1) / 2 ^ k = a + 1 → Under a t
  | 0, t, a, h => by
    rw [Nat.pow_zero, Nat.div_one] at h
    cases h
    exact .here
  | k + 1, t, a, h => by
    rw [show 2 ^ (k + 1) = 2 * 2 ^ k by rw [Nat.pow_succ, Nat.mul_comm], ← Nat.div_div_eq_div_mul] at h
    by_cases h0 : (t + 1) / 2 = 0
    · rw [h0, Nat.zero_div] at h; omega
    · have h' : ((t + 1) / 2 - 1 + 1) / 2 ^ k = a + 1 := by rw [Nat.sub_add_cancel (by omega)]; exact h
      have hu := div_under h'
      by_cases hp : (t + 1) % 2 = 0
      · have e : t = 2 * ((t + 1) / 2 - 1) + 1 := by omega
        rw [e]; exact .left hu
      · have e : t = 2 * ((t + 1) / 2 - 1) + 2 := by omega
        rw [e]; exact .right hu

theorem log2_div {t k c : Nat} (hc : 0 < c) (h : t / 2 ^ k = c) : Nat.log2 t = Nat.log2 c + k := by
  have hc' : c ≠ 0 := by omega
  have ht : t ≠ 0 := by rintro rfl; rw [Nat.zero_div] at h; omega
  obtain ⟨h1, h2⟩ := (Nat.log2_eq_iff hc').1 rfl
  refine (Nat.log2_eq_iff ht).2 ⟨?_, ?_⟩
  · rw [Nat.pow_add]
    exact (Nat.le_div_iff_mul_le (Nat.two_pow_pos k)).1 (by rw [h]; exact h1)
  · rw [show Nat.log2 c + k + 1 = (Nat.log2 c + 1) + k by omega, Nat.pow_add]
    exact (Nat.div_lt_iff_lt_mul (Nat.two_pow_pos k)).1 (by rw [h]; exact h2)

/-- **C113 (1).**  On the way down to a node, `_next` is a child of the current node, and the target is in its subtree. -/
theorem next_on_path {a t : Nat} (h : Under a t) (hne : a ≠ t) (ht : t + 1 < 2 ^ 32) :
    (next a t = 2 * a + 1 ∨ next a t = 2 * a + 2) ∧ Under (next a t) t := by
  obtain ⟨k, hk⟩ := under_div h
  cases k with
  | zero =>
    rw [Nat.pow_zero, Nat.div_one] at hk
    omega
  | succ k =>
    have hlog := log2_div (by omega) hk
    have hle : a + 1 ≤ t + 1 := by rw [← hk]; exact Nat.div_le_self _ _
    have h32 : Nat.log2 (t + 1) < 32 := (Nat.log2_lt (by omega)).2 ht
    have hs : (clz (a + 1) + 2 ^ 32 - clz (t + 1) + 2 ^ 32 - 1) % 2 ^ 32 = k := by
      unfold clz
      rw [if_neg (by omega), if_neg (by omega)]
      omega
    have hq : (t + 1) / 2 ^ k / 2 = a + 1 := by rw [Nat.div_div_eq_div_mul, ← Nat.pow_succ]; exact hk
    have hqle : (t + 1) / 2 ^ k ≤ t + 1 := Nat.div_le_self _ _
    have hn : next a t + 1 = (t + 1) / 2 ^ k := by
      unfold next
      simp only [Nat.mod_eq_of_lt (show a + 1 < 2 ^ 32 by omega), Nat.mod_eq_of_lt ht, hs]
      rw [if_pos (by omega)]
      omega
    refine ⟨by omega, div_under hn.symm⟩

/-- At the target there is no next node: the answer is `2^32 - 1`. -/
theorem next_at_target (t : Nat) (ht : t + 1 < 2 ^ 32) : next t t = 2 ^ 32 - 1 := by
  unfold next
  have h32 : clz (t + 1) ≤ 32 := by unfold clz; split <;> omega
  have hs : (clz (t + 1) + 2 ^ 32 - clz (t + 1) + 2 ^ 32 - 1) % 2 ^ 32 = 2 ^ 32 - 1 := by omega
  simp only [Nat.mod_eq_of_lt ht, hs]
  rw [if_neg (by omega)]

/-- Nodes 0, 1, 4, 10 are the way down to node 10. -/
example : next 0 10 = 1 ∧ next 1 10 = 4 ∧ next 4 10 = 10 ∧ Under 1 10 :=
  ⟨by decide +kernel, by decide +kernel, by decide +kernel, .right (t := 4) (.right (t := 1) .here)⟩

/-! ## `_first_occurrence_mask` -/

/-- **C113 (2).**  If no active value is the sentinel, exactly the first active lane of every value is marked. -/
theorem first_occurrence {values : List Nat} {active : List Bool} {snt : Nat} (hne : ∀ i, active.getD i false = true → values.getD i 0 ≠ snt) (i : Nat) (hi : i < values.length) :
    (firstOccurrenceMask values active snt).getD i false = true ↔
      active.getD i false = true ∧ ∀ j, j < values.length → active.getD j false = true → values.getD j 0 = values.getD i 0 → i ≤ j := by
  unfold firstOccurrenceMask
  simp only
  obtain ⟨key, hkey⟩ : ∃ key : Nat → Nat, key = fun i => if active.getD i false then values.getD i 0 else snt := ⟨_, rfl⟩
  have hk : ∀ i, key i = if active.getD i false then values.getD i 0 else snt := by intro i; rw [hkey]
  rw [← hkey, tab_getD _ _ hi]
  have hord : ∀ le ∈ [leBy key], IsOrder le := by
    intro le hle; simp only [List.mem_singleton] at hle; subst hle; exact leBy_isOrder key
  have hperm : (stableSort (leBy key) (List.range values.length)).Perm (List.range values.length) := stableSort_perm _ _
  have hpw : (stableSort (leBy key) (List.range values.length)).Pairwise (Lex (· < ·) [leBy key]) :=
    stableSort_refine (leBy_isOrder key).1 (leBy_isOrder key).2 _ List.pairwise_lt_range
  generalize stableSort (leBy key) (List.range values.length) = sorted at *
  obtain ⟨p, hp, hpi⟩ := perm_range_pos hperm hi
  have hsame : ∀ a b, sameAll [leBy key] a b = true ↔ key a = key b := by
    intro a b; simp [sameAll, leBy]; omega
  have hval : (scatterSet (List.replicate values.length false) sorted (groupStarts (sameAll [leBy key]) sorted))[i]? =
      some ((groupStarts (sameAll [leBy key]) sorted).getD p false) := by
    apply scatterSet_mem _ _ _ p _ i hpi
    · have hl : p < (groupStarts (sameAll [leBy key]) sorted).length := by
        rw [groupStarts_length, perm_range_length hperm]; omega
      rw [List.getD_eq_getElem?_getD, List.getElem?_eq_getElem hl]; rfl
    · intro q hq; exact nodup_getElem?_inj (perm_range_nodup hperm) hq hpi
    · simpa using hi
  rw [List.getD_eq_getElem?_getD, hval]
  simp only [Option.getD_some, Bool.and_eq_true]
  rw [groupFirst_iff hord hperm hpw hpi]
  simp only [hsame]
  constructor
  · rintro ⟨h1, hai⟩
    refine ⟨hai, fun j hj haj he => h1 j hj ?_⟩
    rw [hk, hk, haj, hai]; simpa using he
  · rintro ⟨hai, h1⟩
    refine ⟨fun j hj he => ?_, hai⟩
    cases haj : active.getD j false with
    | true =>
      apply h1 j hj haj
      rw [hk, hk, haj, hai] at he; simpa using he
    | false =>
      exfalso
      rw [hk, hk, haj, hai] at he
      exact hne i hai (by simpa using he.symm)

/-- An active value equal to the sentinel is missed if an inactive lane precedes it. -/
theorem first_occurrence_sentinel_false : firstOccurrenceMask [3, 9] [false, true] 9 = [false, false] := by decide +kernel

/-- Values 7, 5, 7, 5 with the second lane inactive. -/
example : firstOccurrenceMask [7, 5, 7, 5] [true, false, true, true] 9 = [true, false, false, true] ∧
    ∀ i, [true, false, true, true].getD i false = true → [7, 5, 7, 5].getD i 0 ≠ 9 := by
  refine ⟨by decide +kernel, fun i hi => ?_⟩
  match i, hi with
  | 0, _ => decide
  | 2, _ => decide
  | 3, _ => decide
  | 1, h => exact absurd h (by decide)

end UnusedHelpers
