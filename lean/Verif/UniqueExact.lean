import Verif.UniqueInverse

/-! # What `unique_mask` computes for items of at most 4 words, without any hypothesis (C42, C43)

The guard of C42 is exact: without a `key`, the one thing that can go wrong for items that are not hashed is an unfilled entry AHEAD of the first filled all-ones item
(optimized_unique_ops.py:158-167 gives unfilled entries the all-ones row, :181-185 sorts equal rows by position). -/

namespace Unique

open SortGroup

variable {K : Type u} [KeyTop K]

/-- The item all of whose words are `0xFFFFFFFF`. -/
def AllOnes (row : List Nat) : Prop := ∀ w ∈ row, w = 0xFFFFFFFF

/-- Entry `i` is hidden: no key is given, its item is all ones, and an entry ahead of it is masked out. -/
def Hidden (rows : List (List Nat)) (filled : Option (List Bool)) (key : Option (List K)) (i : Nat) : Prop :=
  key = none ∧ AllOnes (rows.getD i []) ∧ ∃ j, j < i ∧ ¬ Valid filled key j

/-- **C42**, for all items of at most 4 words (2 under x64), every batch, key and filled mask: `unique_mask` marks exactly the representatives that are not hidden. -/
theorem unique_mask_iff {x64 : Bool} {n k : Nat} {rows : List (List Nat)} {key : Option (List K)} {filled : Option (List Bool)} (size fill : Option Nat) (hk : 0 < k)
    (hk4 : k ≤ (if x64 then 2 else 4)) (hrows : ∀ i, i < n → (rows.getD i []).length = k) (hkey : ∀ ks, key = some ks → ks.length = n) :
    ∃ r, uniqueMask x64 n k rows key filled size fill = some r ∧ r.mask.length = n ∧
      ∀ i, i < n → (r.mask.getD i false = true ↔ IsRep n rows filled key i ∧ ¬ Hidden rows filled key i) := by
  obtain ⟨r, hr⟩ := uniqueMask_total (x64 := x64) (rows := rows) (filled := filled) (size := size) (fill := fill) hk hkey
  obtain ⟨h1, h2⟩ := mask_iff hk hkey hr
  refine ⟨r, hr, h1, fun i hi => ?_⟩
  have hc : NoCollision x64 n rows key filled := noCollision_small hrows hk4
  have hx : ¬ (x64 = true ∧ 2 < k) := by
    rintro ⟨rfl, h⟩
    simp only [if_true] at hk4
    omega
  have hwide : ∀ i, i < n → wide x64 (rows.getD i []) = rows.getD i [] := fun i hi => by
    unfold wide; rw [if_pos (by rw [hrows i hi]; exact hk4)]
  have hones : ∀ i j, i < n → j < n → effective filled key i = true → ¬ effective filled key j = true →
      (sameAll (hashLes x64 k rows (effective filled key)) j i = true ↔ AllOnes (rows.getD i [])) := by
    intro i j hi hj ei ej
    have hcols : wideCols x64 k = k := by unfold wideCols; rw [if_pos hk4]
    have hmax : maxVal x64 k = 0xFFFFFFFF := by unfold maxVal; rw [if_neg hx]
    rw [same_iff hrows hj hi, if_neg ej, if_pos ei, hwide i hi, hcols, hmax, eq_comm, List.eq_replicate_iff]
    exact ⟨fun h => h.2, fun h => ⟨hrows i hi, h⟩⟩
  rw [h2 i hi]
  unfold IsRep
  rw [← effective_iff]
  constructor
  · rintro ⟨ei, h⟩
    refine ⟨⟨ei, fun j hj vj he => ?_⟩, ?_⟩
    · have ej := effective_iff.2 vj
      exact (tie_iff_preferred ei ej).1 (h j hj ((same_row hrows hc hj hi ej ei).2 he))
    · rintro ⟨rfl, ho, j, hji, hj⟩
      have ej : ¬ effective filled (none : Option (List K)) j = true := fun h => hj (effective_iff.1 h)
      rcases h j (by omega) ((hones i j hi (by omega) ei ej).2 ho) with e | e
      · omega
      · exact absurd (show i < j from e) (by omega)
  · rintro ⟨⟨ei, h⟩, hh⟩
    refine ⟨ei, fun j hj hsame => ?_⟩
    by_cases ej : effective filled key j = true
    · exact (tie_iff_preferred ei ej).2 (h j hj (effective_iff.1 ej) ((same_row hrows hc hj hi ej ei).1 hsame))
    · right
      cases key with
      | some ks => exact tie_of_invalid ei ej
      | none =>
        have ho := (hones i j hi hj ei ej).1 hsame
        show i < j
        rcases Nat.lt_trichotomy i j with h' | h' | h'
        · exact h'
        · exact absurd (h' ▸ ei) ej
        · exact absurd ⟨rfl, ho, j, h', fun hv => ej (effective_iff.2 hv)⟩ hh

/-- So the mask is the one of C42 for every batch with a key, for every batch padded at its end, and for every other batch exactly if its first filled all-ones item, if there is
one, is ahead of all unfilled entries. -/
theorem unique_mask_exact_iff {x64 : Bool} {n k : Nat} {rows : List (List Nat)} {key : Option (List K)} {filled : Option (List Bool)} {size fill : Option Nat} (hk : 0 < k)
    (hk4 : k ≤ (if x64 then 2 else 4)) (hrows : ∀ i, i < n → (rows.getD i []).length = k) (hkey : ∀ ks, key = some ks → ks.length = n) {r : Result}
    (hr : uniqueMask x64 n k rows key filled size fill = some r) :
    (∀ i, i < n → (r.mask.getD i false = true ↔ IsRep n rows filled key i)) ↔ ∀ i, i < n → IsRep n rows filled key i → ¬ Hidden rows filled key i := by
  obtain ⟨r', hr', _, h⟩ := unique_mask_iff (x64 := x64) (rows := rows) (filled := filled) size fill hk hk4 hrows hkey
  rw [hr] at hr'
  cases hr'
  constructor
  · exact fun hm i hi hrep => ((h i hi).1 ((hm i hi).2 hrep)).2
  · exact fun hh i hi => ⟨fun hm => ((h i hi).1 hm).1, fun hrep => (h i hi).2 ⟨hrep, hh i hi hrep⟩⟩

/-- A batch of two items padded at its end: the all-ones item is marked … -/
example : (uniqueMask (K := Option Nat) false 4 1 [[7], [0xFFFFFFFF], [0], [0]] none (some [true, true, false, false]) none none).map (·.mask) =
    some [true, true, false, false] := by decide +kernel

/-- … and the second hypothesis of `unique_mask_exact_partial` is met by it … -/
example : ∀ i j, j < i → i < 4 → Valid (K := Option Nat) (some [true, true, false, false]) none i → Valid (K := Option Nat) (some [true, true, false, false]) none j := by
  intro i j hji hi hv
  have h1 := hv.1 _ rfl
  refine ⟨fun f e => ?_, fun ks e => (by cases e)⟩
  cases e
  match i, j, hi, hji with
  | 1, 0, _, _ => rfl
  | 2, _, _, _ => cases h1
  | 3, _, _, _ => cases h1

/-- … while the same items after the padding are not. -/
example : (uniqueMask (K := Option Nat) false 4 1 [[0], [0], [7], [0xFFFFFFFF]] none (some [false, false, true, true]) none none).map (·.mask) =
    some [false, false, true, false] ∧ Hidden (K := Option Nat) [[0], [0], [7], [0xFFFFFFFF]] (some [false, false, true, true]) none 3 :=
  ⟨by decide +kernel, rfl, fun w hw => (by simpa using hw), 0, by decide, fun h => absurd (h.1 _ rfl) (by decide)⟩

end Unique
