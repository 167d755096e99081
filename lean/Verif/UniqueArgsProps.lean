import Verif.UniqueArgs

/-!
# `xnp.unique_mask` with arguments of every kind: theorems (C87)
-/

namespace Unique

open Jax SortGroup Dedupe

variable {C : Type v} [Inhabited C] [LawfulCol C] {K : Type u} [KeyTop K]

/-! ## The call -/

/-- A `key` argument that is absent or a float array. -/
def KeyArg.ofOption : Option (List (Option K)) → KeyArg K
  | Option.none => .none
  | some ks => .float ks

omit [LawfulCol C] [Inhabited C] in
theorem regroup_self {k : Nat} (rows : List (List C)) (h : ∀ r ∈ rows, r.length = k) : regroup rows.length k rows = rows := by
  have key : ∀ i (hi : i < rows.length), (rows.flatten.drop (i * k)).take k = rows[i] := by
    induction rows with
    | nil => intro i hi; cases hi
    | cons r rows ih =>
      intro i hi
      have hr := h r (List.mem_cons_self ..)
      cases i with
      | zero => rw [List.flatten_cons, Nat.zero_mul, List.drop_zero, List.take_append_of_le_length (by omega), List.take_of_length_le (by omega)]; rfl
      | succ i =>
        have := ih (fun s hs => h s (List.mem_cons_of_mem _ hs)) i (by simpa using hi)
        rw [List.flatten_cons, List.drop_append, List.drop_eq_nil_of_le (by rw [hr, Nat.succ_mul]; omega), List.nil_append, hr, Nat.succ_mul, Nat.add_sub_cancel]
        simpa using this
  unfold regroup
  apply List.ext_getElem (by simp)
  intro i h1 h2
  simp only [List.getElem_map, List.getElem_range]
  exact key i h2

/-- Arguments that fit a batch of `n` entries with `k > 0` values of `key_fn` each. -/
structure Fits (n k : Nat) (rows : List (List C)) (key : Option (List (Option K))) (filled : Option (List Bool)) (batchLen : Option Nat) (fill : Option Int) : Prop where
  cols : 0 < k
  count : rows.length = n
  width : ∀ r ∈ rows, r.length = k
  keys : ∀ ks, key = some ks → ks.length = n
  mask : ∀ f, filled = some f → f.length = n
  batch : batchLen = none ∨ batchLen = some n
  int32 : n < 2 ^ 31 ∧ ∀ f, fill = some f → -2 ^ 31 ≤ f ∧ f < 2 ^ 31

omit [LawfulCol C] [Inhabited C] in
theorem bcastFilled_self {n : Nat} {f : List Bool} (h : f.length = n) : bcastFilled n f = f := by
  unfold bcastFilled
  by_cases h1 : f.length = 1
  · rw [if_pos h1]
    match f, h1 with
    | [x], _ => have : n = 1 := by simpa using h.symm
                subst this; rfl
  · rw [if_neg h1]

theorem isInt32_iff (z : Int) : isInt32 z = true ↔ -2 ^ 31 ≤ z ∧ z < 2 ^ 31 := by
  unfold isInt32
  rw [Bool.and_eq_true, decide_eq_true_eq, decide_eq_true_eq]

theorem fillUsed_int32 {jit : Bool} {n : Nat} {size : Option Nat} {fill : Option Int} (h : n < 2 ^ 31 ∧ ∀ f, fill = some f → -2 ^ 31 ≤ f ∧ f < 2 ^ 31) :
    ((fillUsed jit n size fill).any fun f => !isInt32 f) = false := by
  have h0 : isInt32 0 = true := (isInt32_iff 0).2 ⟨by omega, by omega⟩
  have hn : isInt32 (n : Int) = true := (isInt32_iff _).2 ⟨by omega, by have := h.1; omega⟩
  have hf : ∀ f, fill = some f → isInt32 f = true := fun f e => (isInt32_iff f).2 (h.2 f e)
  have hg : ∀ d : Int, isInt32 d = true → isInt32 (fill.getD d) = true := fun d hd => by
    cases he : fill with
    | none => exact hd
    | some f => exact hf f he
  have hs : ∀ z : Int, isInt32 z = true → (some z).any (fun f => !isInt32 f) = false := fun z hz => by
    rw [Option.any_some, hz]; rfl
  cases size with
  | some sz => exact hs _ (hg 0 h0)
  | none =>
    cases jit with
    | false => rfl
    | true => exact hs _ (hg n hn)

theorem uniqueCall_eq {x64 jit : Bool} {n k : Nat} {rows : List (List C)} {key : Option (List (Option K))} {filled : Option (List Bool)} {batchLen size : Option Nat}
    {fill : Option Int} (hn : 0 < n) (h : Fits n k rows key filled batchLen fill) :
    uniqueCall x64 jit n k rows (KeyArg.ofOption key) filled batchLen size fill = some (coreC x64 jit n k rows key filled size fill) := by
  have hb : batchLen.getD n = n := by rcases h.batch with e | e <;> rw [e] <;> rfl
  have hk := h.cols
  have hdiv : n * k / n = k := Nat.mul_div_cancel_left _ hn
  have hre : regroup n k rows = rows := by have := regroup_self rows h.width; rwa [h.count] at this
  have hfl : (filled.any fun f => decide (f.length ≠ n ∧ f.length ≠ 1)) = false := by
    cases hf : filled with
    | none => rfl
    | some f => have := h.mask f hf; simp [this]
  have hbc : filled.map (bcastFilled n) = filled := by
    cases hf : filled with
    | none => rfl
    | some f => rw [Option.map_some, bcastFilled_self (h.mask f hf)]
  have hky : ((KeyArg.ofOption key).length.any (· ≠ n)) = false := by
    cases hf : key with
    | none => rfl
    | some f => have := h.keys f hf; simp [KeyArg.ofOption, KeyArg.length, this]
  unfold uniqueCall
  simp only [hb]
  rw [if_neg (by omega), if_neg (by rw [hky]; simp), if_neg (by simp), if_neg (by omega), if_neg (by rw [hfl]; simp), if_neg (by rw [fillUsed_int32 h.int32]; simp), hdiv, hre, hbc]
  cases key <;> rfl

/-! ## Mask, index and inverse -/

section Core

variable {x64 jit : Bool} {n k : Nat} {rows : List (List C)} {key : Option (List (Option K))} {filled : Option (List Bool)} {size : Option Nat} {fill : Option Int}

/-- The sorted entries. -/
def permC (x64 : Bool) (n k : Nat) (rows : List (List C)) (key : Option (List (Option K))) (filled : Option (List Bool)) : List Nat :=
  orderC n (columnsC x64 k rows (effectiveC filled key)) (effectiveC filled key) key

/-- `mask_sorted`. -/
def flagsC (x64 : Bool) (n k : Nat) (rows : List (List C)) (key : Option (List (Option K))) (filled : Option (List Bool)) : List Bool :=
  flags n (sameC x64 k rows (effectiveC filled key)) (effectiveC filled key) (permC x64 n k rows key filled)

theorem permC_perm : (permC x64 n k rows key filled).Perm (List.range n) := orderC_perm _ _ _ _

theorem permC_lex : (permC x64 n k rows key filled).Pairwise
    (Lex (tie (effectiveC filled key) (key.map numKeys)) (lesC x64 k rows (effectiveC filled key))) :=
  orderC_lex _ _ (lesC_isOrder x64 k rows _) _ _

theorem coreC_mask : (coreC x64 jit n k rows key filled size fill).mask = scatterSet (List.replicate n false) (permC x64 n k rows key filled) (flagsC x64 n k rows key filled) := rfl

theorem coreC_inverse : (coreC x64 jit n k rows key filled size fill).inverse = scatterSet (List.replicate n (0 : Int)) (permC x64 n k rows key filled)
    ((cumsum 0 ((flagsC x64 n k rows key filled).map Bool.toNat)).map fun (x : Nat) => (x : Int) - 1) := rfl

theorem coreC_index : (coreC x64 jit n k rows key filled size fill).index = indexC jit (permC x64 n k rows key filled) (flagsC x64 n k rows key filled) n size fill := rfl

theorem flagsC_length : (flagsC x64 n k rows key filled).length = n := flags_length

theorem coreC_mask_iff {i : Nat} (hi : i < n) : (coreC x64 jit n k rows key filled size fill).mask.getD i false = true ↔
    effectiveC filled key i = true ∧ ∀ j, j < n → sameC x64 k rows (effectiveC filled key) j i = true → j = i ∨ tie (effectiveC filled key) (key.map numKeys) i j :=
  mask_at (lesC_isOrder x64 k rows _) (fun _ _ => tie_asymm) permC_perm permC_lex (sameC_iff x64 k rows _) hi

theorem coreC_isRep (hrows : ∀ i, i < n → (rows.getD i []).length = k) (hc : NoCollisionC x64 n k rows key filled) (hs : NoSentinelC x64 n k rows key filled) {i : Nat} (hi : i < n) :
    (coreC x64 jit n k rows key filled size fill).mask.getD i false = true ↔ IsRepC n rows filled key i := by
  rw [coreC_mask_iff hi]
  unfold IsRepC
  rw [← effectiveC_iff]
  refine and_congr_right fun ei => ?_
  constructor
  · intro h j hj vj he
    have ej := effectiveC_iff.2 vj
    by_cases e : j = i
    · exact (tieC_iff ei ej).1 (Or.inl e)
    · exact (tieC_iff ei ej).1 (h j hj ((sameC_rows hrows hc hj hi e ej ei).2 he))
  · intro h j hj hsame
    by_cases e : j = i
    · exact Or.inl e
    by_cases ej : effectiveC filled key j = true
    · exact (tieC_iff ei ej).2 (h j hj (effectiveC_iff.1 ej) ((sameC_rows hrows hc hj hi e ej ei).1 hsame))
    · exact Or.inr (invalidC_later hrows hs hi hj ei ej hsame)

/-- The marked entries in the order of `index`. -/
def markedC (x64 : Bool) (n k : Nat) (rows : List (List C)) (key : Option (List (Option K))) (filled : Option (List Bool)) : List Nat :=
  compress (permC x64 n k rows key filled) (flagsC x64 n k rows key filled)

theorem markedC_perm : (markedC x64 n k rows key filled).Perm ((List.range n).filter fun i => (coreC x64 jit n k rows key filled size fill).mask.getD i false) := by
  have hp := permC_perm (x64 := x64) (n := n) (k := k) (rows := rows) (key := key) (filled := filled)
  have : markedC x64 n k rows key filled = (permC x64 n k rows key filled).filter fun i => (coreC x64 jit n k rows key filled size fill).mask.getD i false := by
    apply compress_eq_filter (by rw [perm_range_length hp, flagsC_length])
    intro p i hpi
    rw [coreC_mask, List.getD_eq_getElem?_getD (l := scatterSet _ _ _), scatter_perm hp false _ flagsC_length hpi, ← List.getD_eq_getElem?_getD]
  rw [this]
  exact hp.filter _

omit [LawfulCol C] [Inhabited C] in
theorem static_index (perm : List Nat) (m : List Bool) (b sz : Nat) (f : Int) (hp : perm.length = b) (hm : m.length = b) :
    ((nonzero m sz b).map fun q => (perm.map Int.ofNat ++ [f]).getD q 0) =
      ((compress perm m).take sz).map Int.ofNat ++ List.replicate (sz - (compress perm m).length) f := by
  have hmap : ∀ q, q ∈ compress (List.range m.length) m → (perm.map Int.ofNat ++ [f]).getD q 0 = Int.ofNat (perm.getD q 0) := by
    intro q hq
    have hq : q < perm.length := by
      unfold compress at hq
      obtain ⟨t, ht, rfl⟩ := List.mem_map.1 hq
      have := (List.of_mem_zip (List.mem_filter.1 ht).1).1
      rw [List.mem_range] at this; omega
    rw [List.getD_eq_getElem?_getD, List.getElem?_append_left (by simpa using hq), List.getElem?_map, List.getElem?_eq_getElem hq, getD_of_getElem? (List.getElem?_eq_getElem hq)]
    rfl
  have hc := compress_map_positions perm m (by omega) []
  simp only [List.append_nil] at hc
  have hl : (compress (List.range m.length) m).length = (compress perm m).length := by rw [← hc, List.length_map]
  unfold nonzero
  simp only
  rw [List.map_append, List.map_replicate, hl]
  congr 1
  · rw [← hc, ← List.map_take, List.map_map]
    exact List.map_congr_left fun q hq => hmap q (List.mem_of_mem_take hq)
  · congr 1
    rw [List.getD_eq_getElem?_getD, List.getElem?_append_right (by simp; omega)]
    simp [hp]

/-- The index list: the marked entries `L`, cut or padded to a static size. -/
def indexList (jit : Bool) (n : Nat) (size : Option Nat) (fill : Option Int) (L : List Nat) : List Int :=
  match size with
  | some sz => (L.take sz).map Int.ofNat ++ List.replicate (sz - L.length) (fill.getD 0)
  | none => if jit then L.map Int.ofNat ++ List.replicate (n - L.length) (fill.getD n) else L.map Int.ofNat

theorem coreC_index_eq : (coreC x64 jit n k rows key filled size fill).index = indexList jit n size fill (markedC x64 n k rows key filled) := by
  have hpl := perm_range_length (permC_perm (x64 := x64) (n := n) (k := k) (rows := rows) (key := key) (filled := filled))
  rw [coreC_index]
  unfold indexC indexList
  cases size with
  | some sz => exact static_index _ _ _ _ _ hpl flagsC_length
  | none =>
    cases jit with
    | false => rfl
    | true =>
      have := static_index (permC x64 n k rows key filled) (flagsC x64 n k rows key filled) n n (fill.getD n) hpl flagsC_length
      simp only [if_true]
      rw [this, List.take_of_length_le]
      · rfl
      · have := (markedC_perm (x64 := x64) (jit := true) (n := n) (k := k) (rows := rows) (key := key) (filled := filled) (size := none) (fill := none)).length_eq
        have h2 := List.length_filter_le (fun i => (coreC x64 true n k rows key filled none none).mask.getD i false) (List.range n)
        rw [List.length_range] at h2
        unfold markedC at this
        omega

theorem coreC_inverse_at (hrows : ∀ i, i < n → (rows.getD i []).length = k) (hc : NoCollisionC x64 n k rows key filled) (hs : NoSentinelC x64 n k rows key filled) {i : Nat}
    (hi : i < n) (hv : ValidC filled key i) :
    ∃ g a : Nat, (coreC x64 jit n k rows key filled size fill).inverse[i]? = some (g : Int) ∧ (markedC x64 n k rows key filled)[g]? = some a ∧
      (a = i ∨ RowEq (rows.getD a []) (rows.getD i [])) := by
  have hp := permC_perm (x64 := x64) (n := n) (k := k) (rows := rows) (key := key) (filled := filled)
  have ei := effectiveC_iff.2 hv
  obtain ⟨p, hpn, hpi⟩ := perm_range_pos hp hi
  obtain ⟨g, a, h1, h2, h3, h4, h5⟩ := group_place (lesC_isOrder x64 k rows _) (fun _ _ => tie_asymm) hp permC_lex (sameC_iff x64 k rows _) (nanC_same x64 k rows _)
    (fun i j hi hj ei ej => invalidC_later hrows hs hi hj ei ej) hi ei hpi
  refine ⟨g, a, ?_, h2, ?_⟩
  · rw [coreC_inverse, scatter_perm hp 0 _ (by simp [flagsC_length]) hpi, List.getElem?_map, getElem?_of_lt 0 (by simp [flagsC_length]; omega)]
    change Option.map _ (some ((cumsum 0 (List.map Bool.toNat (flags n _ _ _))).getD p 0)) = _
    rw [h1]
    simp
  · by_cases e : a = i
    · exact Or.inl e
    · rcases h5 with h5 | h5
      · exact absurd h5 e
      · exact Or.inr ((sameC_rows hrows hc h3 hi e h4 ei).1 h5)

end Core

omit [LawfulCol C] [Inhabited C] [KeyTop K] in
theorem Fits.rows {n k : Nat} {rows : List (List C)} {key : Option (List (Option K))} {filled : Option (List Bool)} {batchLen : Option Nat} {fill : Option Int}
    (h : Fits n k rows key filled batchLen fill) : ∀ i, i < n → (rows.getD i []).length = k := fun i hi => by
  have hi' : i < rows.length := by rw [h.count]; exact hi
  rw [getD_of_getElem? (List.getElem?_eq_getElem hi')]
  exact h.width _ (List.getElem_mem hi')

/-- **C87** (partial: the hash must not identify two entries with different `key_fn` values, and without `key` no valid entry may equal the placeholder).  For `key_fn` values of
every dtype, float keys with or without NaN, every `filled` mask, `size` and `fill_value`, eager or under `jit`: the mask is `True` exactly at the representatives; `index` lists the
marked entries once each, cut to `size` or padded with `fill_value`; `inverse` of a valid entry is the place of an equal entry (or of itself) in that list. -/
theorem unique_call_partial {x64 jit : Bool} {n k : Nat} {rows : List (List C)} {key : Option (List (Option K))} {filled : Option (List Bool)} {batchLen size : Option Nat}
    {fill : Option Int} (h : Fits n k rows key filled batchLen fill) (hc : NoCollisionC x64 n k rows key filled) (hs : NoSentinelC x64 n k rows key filled) :
    ∃ (r : ResultC) (L : List Nat), uniqueCall x64 jit n k rows (KeyArg.ofOption key) filled batchLen size fill = some r ∧
      r.mask.length = n ∧ (∀ i, i < n → (r.mask[i]? = some true ↔ IsRepC n rows filled key i)) ∧
      L.Perm ((List.range n).filter fun i => r.mask.getD i false) ∧ (0 < n → r.index = indexList jit n size fill L) ∧
      r.inverse.length = n ∧ ∀ i, i < n → ValidC filled key i →
        ∃ g a : Nat, r.inverse[i]? = some (g : Int) ∧ L[g]? = some a ∧ (a = i ∨ RowEq (rows.getD a []) (rows.getD i [])) := by
  rcases Nat.eq_zero_or_pos n with h0 | hn
  · subst h0
    have hb : batchLen.getD 0 = 0 := by rcases h.batch with e | e <;> rw [e] <;> rfl
    refine ⟨⟨[], [], []⟩, [], ?_, rfl, ?_, List.Perm.refl _, fun h => absurd h (by omega), rfl, ?_⟩
    · unfold uniqueCall; simp only [hb]; rfl
    · intro i hi; exact absurd hi (by omega)
    · intro i hi; exact absurd hi (by omega)
  · refine ⟨_, markedC x64 n k rows key filled, uniqueCall_eq hn h, ?_, fun i hi => ?_, markedC_perm, fun _ => coreC_index_eq, ?_, fun i hi hv => ?_⟩
    · rw [coreC_mask]; simp
    · rw [← getD_true]; exact coreC_isRep h.rows hc hs hi
    · rw [coreC_inverse]; simp
    · exact coreC_inverse_at h.rows hc hs hi hv

end Unique
