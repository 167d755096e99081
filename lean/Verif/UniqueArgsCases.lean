import Verif.UniqueArgsProps
import Verif.DedupeKeyModel

/-!
# `xnp.unique_mask` with arguments of every kind: special cases and counterexamples (C87)
-/

namespace Unique

open Jax SortGroup Dedupe

variable {C : Type v} [Inhabited C] [LawfulCol C] {K : Type u} [KeyTop K]

/-! ## NaN -/

/-- `+inf` for NaN. -/
def infForNaN (ks : List (Option K)) : List (Option K) := ks.map fun o => some (o.getD KeyPad.inf)

omit [LawfulCol C] [Inhabited C] in
theorem infForNaN_getD (ks : List (Option K)) (i : Nat) :
    (infForNaN ks).getD i none = ks.getD i none ∨ ((infForNaN ks).getD i none = some KeyPad.inf ∧ ks.getD i none = none) := by
  unfold infForNaN
  rw [List.getD_eq_getElem?_getD, List.getElem?_map, List.getD_eq_getElem?_getD]
  cases ks[i]? with
  | none => exact Or.inl rfl
  | some o => cases o with
    | none => exact Or.inr ⟨rfl, rfl⟩
    | some k => exact Or.inl rfl

omit [LawfulCol C] [Inhabited C] in
theorem effectiveC_infForNaN (filled : Option (List Bool)) (ks : List (Option K)) : effectiveC filled (some (infForNaN ks)) = effectiveC filled (some ks) := by
  funext i
  unfold effectiveC
  congr 1
  show belowInf _ = belowInf _
  rcases infForNaN_getD ks i with e | ⟨e1, e2⟩
  · rw [e]
  · rw [e1, e2]
    simp [belowInf, KeyLE.refl]

/-- **C87** (NaN keys).  An entry whose key is NaN is treated as one whose key is `+inf`: it is excluded. -/
theorem unique_nan_key (x64 jit : Bool) (n k : Nat) (rows : List (List C)) (ks : List (Option K)) (filled : Option (List Bool)) (batchLen size : Option Nat) (fill : Option Int) :
    uniqueCall x64 jit n k rows (.float ks) filled batchLen size fill =
      uniqueCall x64 jit n k rows (.float (ks.map fun o => some (o.getD KeyPad.inf))) filled batchLen size fill := by
  have hv : ∀ filled : Option (List Bool), (fun i j => leNaN (validKeyC (effectiveC filled (some (infForNaN ks))) (infForNaN ks) i) (validKeyC (effectiveC filled (some (infForNaN ks))) (infForNaN ks) j)) =
      fun i j => leNaN (validKeyC (effectiveC filled (some ks)) ks i) (validKeyC (effectiveC filled (some ks)) ks j) := fun filled => by
    have h1 : ∀ i, validKeyC (effectiveC filled (some (infForNaN ks))) (infForNaN ks) i = validKeyC (effectiveC filled (some ks)) ks i := fun i => by
      unfold validKeyC
      rw [effectiveC_infForNaN]
      by_cases h : effectiveC filled (some ks) i = true
      · rw [if_pos h, if_pos h]
        rcases infForNaN_getD ks i with e | ⟨_, e⟩
        · exact e
        · obtain ⟨k, hk, _⟩ := effectiveC_key h
          rw [getD_none_of hk] at e; cases e
      · rw [if_neg h, if_neg h]
    funext i j; rw [h1, h1]
  have hcore : ∀ (b k : Nat) (rows : List (List C)) (filled : Option (List Bool)),
      coreC x64 jit b k rows (some (infForNaN ks)) filled size fill = coreC x64 jit b k rows (some ks) filled size fill := fun b k rows filled => by
    unfold coreC orderC
    simp only [hv]
    rw [effectiveC_infForNaN]
  show _ = uniqueCall x64 jit n k rows (.float (infForNaN ks)) filled batchLen size fill
  have hl : (infForNaN ks).length = ks.length := by simp [infForNaN]
  unfold uniqueCall
  simp only [KeyArg.length, hcore, hl]

/-- **C87** (NaN in `key_fn`).  Entries whose `key_fn` value has a NaN are equal to no entry, so each valid one is marked. -/
theorem unique_nan_row {x64 jit : Bool} {n k : Nat} {rows : List (List C)} {key : Option (List (Option K))} {filled : Option (List Bool)} {batchLen size : Option Nat}
    {fill : Option Int} (h : Fits n k rows key filled batchLen fill) (hk : k ≤ direct x64) (hs : NoSentinelC x64 n k rows key filled) :
    ∃ r, uniqueCall x64 jit n k rows (KeyArg.ofOption key) filled batchLen size fill = some r ∧
      ∀ i, i < n → (∃ a ∈ rows.getD i [], ColTy.isNaN a = true) → (r.mask[i]? = some true ↔ ValidC filled key i) := by
  obtain ⟨r, L, hr, _, hm, _⟩ := unique_call_partial (x64 := x64) (jit := jit) (size := size) h (Or.inl hk) hs
  refine ⟨r, hr, fun i hi ⟨a, ha, hnan⟩ => ?_⟩
  rw [hm i hi]
  refine ⟨fun h => h.1, fun hv => ⟨hv, fun j hj hvj hrow => ?_⟩⟩
  exfalso
  obtain ⟨c, hc, rfl⟩ := List.getElem_of_mem ha
  have hcj : c < (rows.getD j []).length := by rw [hrow.1]; exact hc
  have := hrow.2 c _ _ (List.getElem?_eq_getElem hcj) (List.getElem?_eq_getElem hc)
  rw [ColTy.eq, hnan, Bool.not_true, Bool.and_false, Bool.false_and, Bool.false_and] at this
  cases this

/-! ## Masks of length 1, `batch_len` and errors -/

/-- **C87** (`filled` of length 1).  A mask of one flag stands for that flag at every entry. -/
theorem unique_filled_one (x64 jit : Bool) (n k : Nat) (rows : List (List C)) (key : KeyArg K) (x : Bool) (batchLen size : Option Nat) (fill : Option Int) :
    uniqueCall x64 jit n k rows key (some [x]) batchLen size fill =
      uniqueCall x64 jit n k rows key (some (List.replicate (batchLen.getD n) x)) batchLen size fill := by
  have hb : bcastFilled (batchLen.getD n) (List.replicate (batchLen.getD n) x) = bcastFilled (batchLen.getD n) [x] := by
    rw [bcastFilled_self (List.length_replicate ..)]; rfl
  unfold uniqueCall
  simp only [Option.any_some, List.length_replicate, List.length_singleton, ne_eq, not_true_eq_false, false_and, and_false, decide_false, Option.map_some, hb]

/-- **C87** (`batch_len`).  A `batch_len` other than the batch length does not restrict the call to the first entries: the values of `key_fn` of all entries, in order, are cut into
`batch_len` rows of equal size, and the result is that of a batch with these rows. -/
theorem unique_batch_len {x64 jit : Bool} {n k b : Nat} {rows : List (List C)} {key : KeyArg K} {filled : Option (List Bool)} {size : Option Nat} {fill : Option Int}
    (hb : 0 < b) (hdvd : b ∣ n * k) (hcount : rows.length = n) (hwidth : ∀ r ∈ rows, r.length = k) :
    uniqueCall x64 jit n k rows key filled (some b) size fill = uniqueCall x64 jit b (n * k / b) (regroup b (n * k / b) rows) key filled none size fill ∧
      (regroup b (n * k / b) rows).flatten = rows.flatten ∧ (regroup b (n * k / b) rows).length = b ∧ ∀ r ∈ regroup b (n * k / b) rows, r.length = n * k / b := by
  have hbm : b * (n * k / b) = n * k := Nat.mul_div_cancel' hdvd
  have hfl : rows.flatten.length = n * k := by
    have : ∀ rows : List (List C), (∀ r ∈ rows, r.length = k) → rows.flatten.length = rows.length * k := by
      intro rows
      induction rows with
      | nil => intro _; simp
      | cons r rows ih =>
        intro h
        rw [List.flatten_cons, List.length_append, h r (List.mem_cons_self ..), ih (fun s hs => h s (List.mem_cons_of_mem _ hs)), List.length_cons, Nat.succ_mul]; omega
    rw [this rows hwidth, hcount]
  generalize hm : n * k / b = m at *
  have hw : ∀ r ∈ regroup b m rows, r.length = m := by
    intro r hr
    obtain ⟨i, hi, rfl⟩ := List.mem_map.1 hr
    rw [List.mem_range] at hi
    have : (i + 1) * m ≤ b * m := Nat.mul_le_mul_right _ hi
    rw [Nat.succ_mul] at this
    rw [List.length_take, List.length_drop, hfl]; omega
  have hlen : (regroup b m rows).length = b := by simp [regroup]
  have hflat : (regroup b m rows).flatten = rows.flatten := by
    have : ∀ j, j ≤ b → ((List.range j).map fun i => (rows.flatten.drop (i * m)).take m).flatten = rows.flatten.take (j * m) := by
      intro j
      induction j with
      | zero => intro _; simp
      | succ j ih =>
        intro hj
        rw [List.range_succ, List.map_append, List.flatten_append, ih (by omega), List.map_singleton, List.flatten_singleton, Nat.succ_mul, List.take_add]
    have := this b (Nat.le_refl _)
    unfold regroup
    rw [this, hbm, ← hfl, List.take_length]
  refine ⟨?_, hflat, hlen, hw⟩
  have hdd : b * m / b = m := Nat.mul_div_cancel_left _ hb
  have hre : regroup b m (regroup b m rows) = regroup b m rows := by have := regroup_self _ hw; rwa [hlen] at this
  unfold uniqueCall
  simp only [Option.getD_some, Option.getD_none, hm, ← hbm, hdd, hre]

/-- **C87** (errors).  Unless `batch_len` is 0, the call raises exactly if the key has another length than `batch_len` or is an integer array, the values of `key_fn` cannot be cut
into `batch_len` rows of at least one value, `filled` has neither length 1 nor `batch_len`, or a `fill_value` that is used is no 32-bit integer. -/
theorem unique_raises {x64 jit : Bool} {n k : Nat} {rows : List (List C)} {key : KeyArg K} {filled : Option (List Bool)} {batchLen size : Option Nat} {fill : Option Int} :
    uniqueCall x64 jit n k rows key filled batchLen size fill = none ↔ batchLen.getD n ≠ 0 ∧
      ((∃ l, key.length = some l ∧ l ≠ batchLen.getD n) ∨ (∃ ks, key = .int ks) ∨ ¬ batchLen.getD n ∣ n * k ∨ n * k = 0 ∨
        (∃ f, filled = some f ∧ f.length ≠ batchLen.getD n ∧ f.length ≠ 1) ∨
        ((size.isSome = true ∨ jit = true) ∧ ∃ f : Int, (fill = some f ∨ (fill = none ∧ size = none ∧ f = batchLen.getD n)) ∧ ¬ (-2 ^ 31 ≤ f ∧ f < 2 ^ 31))) := by
  unfold uniqueCall
  simp only
  generalize batchLen.getD n = b
  by_cases h0 : b = 0
  · rw [if_pos h0]; simp [h0]
  rw [if_neg h0]
  have hk : (key.length.any (fun x => decide (x ≠ b))) = true ↔ ∃ l, key.length = some l ∧ l ≠ b := by
    cases key.length <;> simp
  have hf : (filled.any fun f => decide (f.length ≠ b ∧ f.length ≠ 1)) = true ↔ ∃ f, filled = some f ∧ f.length ≠ b ∧ f.length ≠ 1 := by
    cases filled <;> simp
  have hi : ((fillUsed jit b size fill).any fun f => !isInt32 f) = true ↔
      (size.isSome = true ∨ jit = true) ∧ ∃ f : Int, (fill = some f ∨ (fill = none ∧ size = none ∧ f = b)) ∧ ¬ (-2 ^ 31 ≤ f ∧ f < 2 ^ 31) := by
    have hz : ∀ z : Int, (some z).any (fun f => !isInt32 f) = true ↔ ¬ (-2 ^ 31 ≤ z ∧ z < 2 ^ 31) := fun z => by
      rw [← isInt32_iff, Option.any_some]; cases isInt32 z <;> simp
    have h00 : ¬ ¬ (-2 ^ 31 ≤ (0 : Int) ∧ (0 : Int) < 2 ^ 31) := not_not_intro ⟨by decide, by decide⟩
    cases size with
    | some sz =>
      show (some (fill.getD 0)).any (fun f => !isInt32 f) = true ↔ _
      rw [hz]
      cases fill with
      | none => exact ⟨fun h => absurd h h00, fun ⟨_, f, h, _⟩ => by rcases h with h | h; cases h; cases h.2.1⟩
      | some f => exact ⟨fun h => ⟨Or.inl rfl, f, Or.inl rfl, h⟩, fun ⟨_, g, h, hg⟩ => by rcases h with h | h; cases h; exact hg; cases h.1⟩
    | none =>
      cases jit with
      | false => exact ⟨fun h => (by cases h), fun ⟨h, _⟩ => (by rcases h with h | h <;> cases h)⟩
      | true =>
        show (some (fill.getD b)).any (fun f => !isInt32 f) = true ↔ _
        rw [hz]
        cases fill with
        | none => exact ⟨fun h => ⟨Or.inr rfl, b, Or.inr ⟨rfl, rfl, rfl⟩, h⟩, fun ⟨_, f, h, hf⟩ => by rcases h with h | h; cases h; rw [h.2.2] at hf; exact hf⟩
        | some f => exact ⟨fun h => ⟨Or.inr rfl, f, Or.inl rfl, h⟩, fun ⟨_, g, h, hg⟩ => by rcases h with h | h; cases h; exact hg; cases h.1⟩
  have hd : n * k % b ≠ 0 ↔ ¬ b ∣ n * k := not_congr Nat.dvd_iff_mod_eq_zero.symm
  have hdm : n * k % b = 0 → n * k / b = 0 → n * k = 0 := fun h1 h2 => by rw [← Nat.div_add_mod (n * k) b, h1, h2, Nat.mul_zero]
  rw [← hk, ← hf, ← hi, ← hd]
  refine ⟨fun h => ⟨h0, ?_⟩, fun ⟨_, h⟩ => ?_⟩
  · by_cases c1 : key.length.any (fun x => decide (x ≠ b)) = true
    · exact Or.inl c1
    rw [if_neg c1] at h
    by_cases c2 : n * k % b ≠ 0
    · exact Or.inr (Or.inr (Or.inl c2))
    rw [if_neg c2] at h
    by_cases c3 : n * k / b = 0
    · refine Or.inr (Or.inr (Or.inr (Or.inl ?_)))
      exact hdm (Classical.not_not.1 c2) c3
    rw [if_neg c3] at h
    by_cases c4 : (filled.any fun f => decide (f.length ≠ b ∧ f.length ≠ 1)) = true
    · exact Or.inr (Or.inr (Or.inr (Or.inr (Or.inl c4))))
    rw [if_neg c4] at h
    by_cases c5 : ((fillUsed jit b size fill).any fun f => !isInt32 f) = true
    · exact Or.inr (Or.inr (Or.inr (Or.inr (Or.inr c5))))
    rw [if_neg c5] at h
    cases key with
    | none => cases h
    | float ks => cases h
    | int ks => exact Or.inr (Or.inl ⟨ks, rfl⟩)
  · by_cases c1 : key.length.any (fun x => decide (x ≠ b)) = true
    · rw [if_pos c1]
    rw [if_neg c1]
    by_cases c2 : n * k % b ≠ 0
    · rw [if_pos c2]
    rw [if_neg c2]
    by_cases c3 : n * k / b = 0
    · rw [if_pos c3]
    rw [if_neg c3]
    by_cases c4 : (filled.any fun f => decide (f.length ≠ b ∧ f.length ≠ 1)) = true
    · rw [if_pos c4]
    rw [if_neg c4]
    by_cases c5 : ((fillUsed jit b size fill).any fun f => !isInt32 f) = true
    · rw [if_pos c5]
    rw [if_neg c5]
    rcases h with h | ⟨ks, rfl⟩ | h | h | h | h
    · exact absurd h c1
    · rfl
    · exact absurd h c2
    · rw [h] at c3; exact absurd (Nat.zero_div b) c3
    · exact absurd h c4
    · exact absurd h c5

end Unique
