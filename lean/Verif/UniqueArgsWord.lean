import Verif.UniqueArgsCases
import Verif.DedupeKey

/-!
# `xnp.unique_mask`: unsigned `key_fn` values, hashing of floats, and the legacy version (C87)
-/

namespace Unique

open Jax SortGroup Dedupe

variable {K : Type u} [KeyTop K]

/-! ## `uint32` values: the model of C42 and C43 -/

/-- Keys without NaN. -/
def someKeys (key : Option (List K)) : Option (List (Option K)) := key.map fun ks => ks.map some

theorem effectiveC_some (filled : Option (List Bool)) (key : Option (List K)) : effectiveC filled (someKeys key) = effective filled key := by
  funext i
  unfold effectiveC effective someKeys
  congr 1
  cases key with
  | none => rfl
  | some ks =>
    show belowInf _ = _
    rw [List.getD_eq_getElem?_getD, List.getElem?_map]
    simp only [List.getD_eq_getElem?_getD]
    cases ks[i]? with
    | none => simp [belowInf, KeyLE.refl]
    | some k => rfl

theorem numKeys_some (ks : List K) : numKeys (ks.map some) = ks := by
  unfold numKeys
  rw [List.map_map]
  exact List.map_id _

theorem cell_column {x64 : Bool} {k : Nat} (hk : k ≤ direct x64) {rows : List (List Nat)} (hw : ∀ r ∈ rows, r.length = k) (eff : Nat → Bool) (c : Nat) :
    (fun i => cell rows eff c i) = column x64 k rows eff c := by
  funext i
  unfold cell column
  have hl : (rows.getD i []).length ≤ k := by
    by_cases hi : i < rows.length
    · rw [getD_of_getElem? (List.getElem?_eq_getElem hi), hw _ (List.getElem_mem hi)]; exact Nat.le_refl _
    · rw [List.getD_eq_getElem?_getD, List.getElem?_eq_none (by omega)]; exact Nat.zero_le _
  have hwd : wide x64 (rows.getD i []) = rows.getD i [] := by
    unfold wide
    exact if_pos (Nat.le_trans hl hk)
  rw [hwd]
  by_cases he : eff i = true
  · rw [if_pos he, if_pos he]; rfl
  · rw [if_neg he, if_neg he]
    unfold maxVal
    rw [if_neg]
    · rfl
    · rintro ⟨e, h2⟩
      rw [e] at hk
      simp only [direct, if_true] at hk
      omega

theorem columnsC_nat {x64 : Bool} {k : Nat} {rows : List (List Nat)} (hw : ∀ r ∈ rows, r.length = k) (eff : Nat → Bool) :
    columnsC x64 k rows eff = (List.range (wideCols x64 k)).map fun c => (leBy (column x64 k rows eff c), fun i j => column x64 k rows eff c i == column x64 k rows eff c j) := by
  unfold columnsC
  by_cases hk : k ≤ direct x64
  · have hwc : wideCols x64 k = k := by unfold wideCols; exact if_pos hk
    rw [if_pos hk, hwc]
    apply List.map_congr_left
    intro c _
    have hcell : ∀ i, cell rows eff c i = column x64 k rows eff c i := fun i => congrFun (cell_column hk hw eff c) i
    simp only [hcell]
    refine Prod.ext rfl ?_
    funext i j
    simp only [ColTy.eq, ColTy.isNaN, ColTy.le]
    rw [Bool.eq_iff_iff]
    simp
    omega
  · rw [if_neg hk]
    have : (rows.map fun r => r.map (ColTy.word x64)) = rows := by
      have : (fun r : List Nat => r.map (ColTy.word x64)) = id := by
        funext r
        exact List.map_id _
      rw [this]; exact List.map_id _
    rw [this]

theorem lesC_nat {x64 : Bool} {k : Nat} {rows : List (List Nat)} (hw : ∀ r ∈ rows, r.length = k) (eff : Nat → Bool) : lesC x64 k rows eff = hashLes x64 k rows eff := by
  unfold lesC hashLes
  rw [columnsC_nat hw, List.map_map]
  rfl

theorem sameC_nat {x64 : Bool} {k : Nat} {rows : List (List Nat)} (hw : ∀ r ∈ rows, r.length = k) (eff : Nat → Bool) :
    sameC x64 k rows eff = sameAll (hashLes x64 k rows eff) := by
  funext i j
  rw [Bool.eq_iff_iff, sameC_iff, lesC_nat hw]
  have : nanC x64 k rows eff j = false := by
    unfold nanC
    simp [ColTy.isNaN]
  rw [this]
  simp

theorem permC_nat {x64 : Bool} {n k : Nat} {rows : List (List Nat)} (hw : ∀ r ∈ rows, r.length = k) (key : Option (List K)) (filled : Option (List Bool)) :
    permC x64 n k rows (someKeys key) filled = order x64 n k rows (effective filled key) key := by
  unfold permC orderC order
  have h := lesC_nat (x64 := x64) hw (effectiveC filled (someKeys key))
  unfold lesC at h
  rw [h, effectiveC_some]
  cases key with
  | none => rfl
  | some ks =>
    have := leNaN_eq filled (ks.map some)
    rw [numKeys_some] at this
    have he := effectiveC_some filled (some ks)
    simp only [someKeys, Option.map_some] at he ⊢
    rw [he] at this
    rw [this]

/-- The result with indices as integers. -/
def Result.toC (r : Result) : ResultC := ⟨r.mask, r.index.map Int.ofNat, r.inverse⟩

/-- **C87** (`uint32`).  With unsigned `key_fn` values, no NaN, and arguments that fit the batch, the call is the one of C42 and C43. -/
theorem unique_uint32 {x64 : Bool} {n k : Nat} {rows : List (List Nat)} {key : Option (List K)} {filled : Option (List Bool)} {batchLen size fill : Option Nat}
    (h : Fits n k rows (someKeys key) filled batchLen (fill.map Int.ofNat)) :
    uniqueCall x64 false n k rows (KeyArg.ofOption (someKeys key)) filled batchLen size (fill.map Int.ofNat) = (uniqueMask x64 n k rows key filled size fill).map Result.toC := by
  rcases Nat.eq_zero_or_pos n with h0 | hn
  · subst h0
    have hb : batchLen.getD 0 = 0 := by rcases h.batch with e | e <;> rw [e] <;> rfl
    unfold uniqueCall uniqueMask
    simp only [hb, if_true]
    rfl
  · have hkey : ∀ ks, key = some ks → ks.length = n := fun ks e => by
      have := h.keys (ks.map some) (by rw [e]; rfl)
      simpa using this
    have hfl : flagsC x64 n k rows (someKeys key) filled = maskSorted x64 n k rows key filled := by
      unfold flagsC flags maskSorted
      rw [permC_nat h.width, effectiveC_some, sameC_nat h.width]
    rw [uniqueCall_eq hn h, uniqueMask_eq hn h.cols hkey]
    simp only [Option.map_some, Option.some.injEq]
    have hmk : markedC x64 n k rows (someKeys key) filled = marked x64 n k rows key filled := by
      unfold markedC marked
      rw [hfl, permC_nat h.width]
    have hidx : (coreC x64 false n k rows (someKeys key) filled size (fill.map Int.ofNat)).index =
        (uniqueIndices (order x64 n k rows (effective filled key) key) (maskSorted x64 n k rows key filled) n size fill).map Int.ofNat := by
      obtain ⟨L, _, h2, h3⟩ := unique_index_spec (x64 := x64) (rows := rows) (filled := filled) (size := size) (fill := fill) hn h.cols hkey (uniqueMask_eq hn h.cols hkey)
      simp only at h3
      rw [h3, coreC_index_eq, hmk, h2]
      unfold indexList
      cases size with
      | none => rfl
      | some sz =>
        simp only [List.map_append, List.map_replicate]
        cases fill <;> rfl
    have hmask : (coreC x64 false n k rows (someKeys key) filled size (fill.map Int.ofNat)).mask =
        scatterSet (List.replicate n false) (order x64 n k rows (effective filled key) key) (maskSorted x64 n k rows key filled) := by
      rw [coreC_mask, hfl, permC_nat h.width]
    have hinv : (coreC x64 false n k rows (someKeys key) filled size (fill.map Int.ofNat)).inverse =
        scatterSet (List.replicate n (0 : Int)) (order x64 n k rows (effective filled key) key)
          ((cumsum 0 ((maskSorted x64 n k rows key filled).map Bool.toNat)).map fun (x : Nat) => (x : Int) - 1) := by
      rw [coreC_inverse, hfl, permC_nat h.width]
    have hext : ∀ r : ResultC, r = ⟨r.mask, r.index, r.inverse⟩ := fun _ => rfl
    rw [hext (coreC x64 false n k rows (someKeys key) filled size (fill.map Int.ofNat)), hmask, hidx, hinv]
    rfl

/-! ## Examples and counterexamples -/

/-- Signed values with a float key (`none` is NaN): entries 0, 2 and 4 have the value −3, the one with the smallest number wins. -/
example : (uniqueCall (K := Option Nat) false false 5 1 [[(-3 : Int)], [7], [-3], [7], [-3]] (.float [none, some (some 4), some (some 2), some (some 1), some (some 9)]) none none none none).map
    (fun r => (r.mask, r.index, r.inverse)) = some ([false, false, true, true, false], [2, 3], [1, 1, 0, 1, 0]) := by decide +kernel

/-- The hypotheses of `unique_call_partial` are met by it. -/
example : Fits 5 1 [[(-3 : Int)], [7], [-3], [7], [-3]] (some [none, some (some 4), some (some 2), some (some 1), some (some 9)] : Option (List (Option (Option Nat)))) none none
      (some (-1)) ∧
    NoCollisionC false 5 1 [[(-3 : Int)], [7], [-3], [7], [-3]] (some [none, some (some 4), some (some 2), some (some 1), some (some 9)] : Option (List (Option (Option Nat)))) none ∧
    NoSentinelC false 5 1 [[(-3 : Int)], [7], [-3], [7], [-3]] (some [none, some (some 4), some (some 2), some (some 1), some (some 9)] : Option (List (Option (Option Nat)))) none :=
  ⟨⟨by decide, rfl, by decide, fun ks e => (by cases e; rfl), fun f e => (by cases e), Or.inl rfl, by decide, fun f e => (by cases e; decide)⟩, Or.inl (by decide), Or.inl rfl⟩

/-- A static size with a negative fill value. -/
example : (uniqueCall (K := Option Nat) false false 3 1 [[(5 : Int)], [5], [2]] .none none none (some 4) (some (-1))).map (fun r => r.index) = some [2, 0, -1, -1] := by
  decide +kernel

/-- **C87** is false of a `batch_len` below the batch length: four entries of one word with `batch_len = 2` give a mask of two flags about the PAIRS of entries; the four distinct
entries would give four flags, the first two entries two. -/
theorem batch_len_false : (uniqueCall (K := Option Nat) false false 4 1 [[1], [2], [1], [2]] .none none (some 2) none none).map (fun r => r.mask) = some [true, false] ∧
    (uniqueCall (K := Option Nat) false false 2 1 [[1], [2]] .none none none none none).map (fun r => r.mask) = some [true, true] := by decide +kernel

/-- A `batch_len` above the batch length splits entries. -/
example : (uniqueCall (K := Option Nat) false false 2 2 [[1, 1], [2, 3]] .none none (some 4) none none).map (fun r => r.mask) = some [true, false, true, true] := by decide +kernel

/-- An integer `key` raises. -/
theorem integer_key_false (x64 jit : Bool) {n k : Nat} (hn : 0 < n) (rows : List (List Nat)) (ks : List Int) (filled : Option (List Bool)) (size : Option Nat) (fill : Option Int) :
    uniqueCall (K := K) x64 jit n k rows (.int ks) filled none size fill = none :=
  unique_raises.2 ⟨by simp; omega, Or.inr (Or.inl ⟨ks, rfl⟩)⟩

/-- Numbers with one decimal, in tenths: a float dtype as far as the example goes. -/
structure Tenths where
  val : Nat
deriving Inhabited, DecidableEq

instance : LawfulCol Tenths where
  le a b := decide (a.val ≤ b.val)
  isNaN _ := false
  maxVal := ⟨10 ^ 38⟩
  word x64 a := a.val / 10 % (if x64 then 2 ^ 64 else 2 ^ 32)
  trans := by intro a b c; simp; omega
  total := by intro a b; simp; omega
  nan_eqv := by intros; rfl
  max_num := rfl
  word_eq := by
    intro x64 a b h1 h2 _
    have : a.val = b.val := by simp at h1 h2; omega
    rw [this]

/-- **C87** is false of float values in more than 4 columns: `astype(uint32)` drops the fraction, so entries 0.5, 0, 0, 0, 0 and 0.7, 0, 0, 0, 0 are taken for equal, whatever the hash
does; with 4 columns they are not. -/
theorem float_rows_false :
    (uniqueCall (K := Option Nat) false false 2 5 [[⟨5⟩, ⟨0⟩, ⟨0⟩, ⟨0⟩, ⟨0⟩], [(⟨7⟩ : Tenths), ⟨0⟩, ⟨0⟩, ⟨0⟩, ⟨0⟩]] .none none none none none).map (fun r => r.mask) = some [true, false] ∧
    (uniqueCall (K := Option Nat) false false 2 4 [[⟨5⟩, ⟨0⟩, ⟨0⟩, ⟨0⟩], [(⟨7⟩ : Tenths), ⟨0⟩, ⟨0⟩, ⟨0⟩]] .none none none none none).map (fun r => r.mask) = some [true, true] := by
  decide +kernel

/-! ## The legacy version with NaN keys -/

/-- `masked_key` with keys that may be NaN (legacy_unique_ops.py:70-74). -/
def legacyKeyN (filled : Option (List Bool)) (ks : List (Option K)) (i : Nat) : Option K :=
  match filled with
  | none => ks.getD i (some KeyPad.inf)
  | some f => if f.getD i false then ks.getD i (some KeyPad.inf) else some KeyPad.inf

/-- `winning_indices_per_group` with keys that may be NaN (legacy_unique_ops.py:76-100). -/
def legacyWinnersN (n : Nat) (inv : List Nat) (ks : List (Option K)) (filled : Option (List Bool)) : List Nat :=
  let masked := tab n fun i => legacyKeyN filled ks i
  let minCosts := segMinN n inv masked                                                                           -- 76-77
  let isMin := fun i => eqN (masked.getD i (some KeyPad.inf)) (minCosts.getD (inv.getD i 0) (some KeyPad.inf))   -- 79-80
  let consider := tab n fun i => if isMin i && isFilled filled i then i else n                                   -- 82-93
  segMin n n inv consider                                                                                        -- 95-98

/-- The mask of `unique_mask_legacy` with a float key that may hold NaN (legacy_unique_ops.py:14-107); the arguments are as in `uniqueMaskLegacy`. -/
def legacyMaskN (n k : Nat) (rows : List (List Nat)) (ks : List (Option K)) (filled : Option (List Bool)) : List Bool :=
  let inv := (jnpUnique (legacyLes k rows filled) n).2
  let win := legacyWinnersN n inv ks filled
  tab n fun i => i == win.getD (inv.getD i 0) 0 && (match filled with | none => belowInf (ks.getD i (some KeyPad.inf)) | some _ => true)

theorem legacyKeyN_filled {filled : Option (List Bool)} (ks : List (Option K)) {i : Nat} (h : isFilled filled i = true) : legacyKeyN filled ks i = ks.getD i (some KeyPad.inf) := by
  cases filled with
  | none => rfl
  | some f => simp only [legacyKeyN, isFilled] at *; rw [if_pos h]

theorem toKey_getD (ks : List (Option K)) (i : Nat) : (ks.map toKey).getD i KeyPad.inf = toKey (ks.getD i (some KeyPad.inf)) := by
  rw [List.getD_eq_getElem?_getD, List.getElem?_map, List.getD_eq_getElem?_getD]
  cases ks[i]? <;> rfl

theorem toKey_legacy (filled : Option (List Bool)) (ks : List (Option K)) (i : Nat) : toKey (legacyKeyN filled ks i) = legacyKey filled (ks.map toKey) i := by
  cases filled with
  | none => simp only [legacyKeyN, legacyKey, toKey_getD]
  | some f =>
    simp only [legacyKeyN, legacyKey, toKey_getD]
    by_cases h : f.getD i false = true
    · rw [if_pos h, if_pos h]
    · rw [if_neg h, if_neg h]; rfl

/-- The last factor of `legacyMaskN`. -/
def keyOkN (filled : Option (List Bool)) (ks : List (Option K)) (i : Nat) : Bool := match filled with | none => belowInf (ks.getD i (some KeyPad.inf)) | some _ => true

/-- The last factor of the mask of `uniqueMaskLegacy`. -/
def keyOk (filled : Option (List Bool)) (ks : List K) (i : Nat) : Bool := match filled with | none => !KeyCmp.le KeyPad.inf (ks.getD i KeyPad.inf) | some _ => true

/-- **C87** (legacy version, NaN keys).  An entry is marked iff no filled entry with an equal item has a NaN key and it is marked when keys `+inf` are put for NaN. -/
theorem legacy_nan_key {n k : Nat} {rows : List (List Nat)} (hrows : ∀ i, i < n → (rows.getD i []).length = k) (ks : List (Option K)) (filled : Option (List Bool)) {i : Nat}
    (hi : i < n) (hks : ks.length = n) :
    (legacyMaskN n k rows ks filled).getD i false = true ↔
      (∀ j, j < n → isFilled filled j = true → rows.getD j [] = rows.getD i [] → ks[j]? ≠ some none) ∧
      (uniqueMaskLegacy n k rows (some (ks.map toKey)) filled).1.getD i false = true := by
  have hnone : ∀ j, j < n → (ks[j]? = some none ↔ ks.getD j (some KeyPad.inf) = none) := fun j hj => by
    rw [List.getD_eq_getElem?_getD, List.getElem?_eq_getElem (by omega)]
    simp
  have hmaskN : (legacyMaskN n k rows ks filled).getD i false =
      (i == (legacyWinnersN n (jnpUnique (legacyLes k rows filled) n).2 ks filled).getD ((jnpUnique (legacyLes k rows filled) n).2.getD i 0) 0 &&
        keyOkN filled ks i) := tab_getD _ _ hi
  have hmask : (uniqueMaskLegacy n k rows (some (ks.map toKey)) filled).1.getD i false =
      (i == (legacyWinners n (jnpUnique (legacyLes k rows filled) n).2 (ks.map toKey) filled).getD ((jnpUnique (legacyLes k rows filled) n).2.getD i 0) 0 &&
        keyOk filled (ks.map toKey) i) := by
    unfold uniqueMaskLegacy
    rw [if_neg (by omega)]
    exact tab_getD _ _ hi
  rw [hmaskN, hmask]
  have hiff : ∀ a b, a < n → b < n → ((jnpUnique (legacyLes k rows filled) n).2.getD a 0 = (jnpUnique (legacyLes k rows filled) n).2.getD b 0 ↔
      rows.getD a [] = rows.getD b [] ∧ isFilled filled a = isFilled filled b) := fun a b ha hb => legacy_inv_iff hrows ha hb
  have hinvl : (jnpUnique (legacyLes k rows filled) n).2.length = n := jnpUnique_inv_length _ _
  have hg : (jnpUnique (legacyLes k rows filled) n).2.getD i 0 < n := jnpUnique_inv_lt hi
  have hspec := (legacyWinners_spec hrows (ks.map toKey) filled hi).1
  generalize (jnpUnique (legacyLes k rows filled) n).2 = inv at *
  have htab : ∀ j, j < n → (tab n fun i => legacyKeyN filled ks i).getD j (some KeyPad.inf) = legacyKeyN filled ks j := fun j hj => tab_getD _ _ hj
  have htabK : ∀ j, j < n → (tab n fun i => legacyKey filled (ks.map toKey) i).getD j KeyPad.inf = legacyKey filled (ks.map toKey) j := fun j hj => tab_getD _ _ hj
  have hmapt : (tab n fun i => legacyKeyN filled ks i).map toKey = tab n fun i => legacyKey filled (ks.map toKey) i := by
    apply List.ext_getElem?
    intro j
    rw [List.getElem?_map]
    by_cases hj : j < n
    · rw [tab_getElem?, tab_getElem?, if_pos hj, if_pos hj, Option.map_some, toKey_legacy]
    · rw [List.getElem?_eq_none (by simp; omega), List.getElem?_eq_none (by simp; omega)]; rfl
  obtain ⟨s1, s2⟩ := segMinN_spec (n := n) (gids := inv) (vals := tab n fun i => legacyKeyN filled ks i) (by simp [hinvl]) hg
  rw [hmapt, hinvl] at s2
  rw [hinvl] at s1
  -- the winner if the group has no NaN
  have hagree : (¬ ∃ p, p < n ∧ inv.getD p 0 = inv.getD i 0 ∧ (tab n fun i => legacyKeyN filled ks i).getD p (some KeyPad.inf) = none) →
      (legacyWinnersN n inv ks filled).getD (inv.getD i 0) 0 = (legacyWinners n inv (ks.map toKey) filled).getD (inv.getD i 0) 0 := fun hno => by
    unfold legacyWinnersN legacyWinners
    simp only
    apply segMin_congr (by simp [hinvl]) (by simp [hinvl]) hg
    intro p hp hpg
    rw [hinvl] at hp
    rw [tab_getD (f := fun i => if eqN ((tab n fun i => legacyKeyN filled ks i).getD i (some KeyPad.inf))
          ((segMinN n inv (tab n fun i => legacyKeyN filled ks i)).getD (inv.getD i 0) (some KeyPad.inf)) && isFilled filled i then i else n) 0 hp,
      tab_getD (f := fun i => if eqK ((tab n fun i => legacyKey filled (ks.map toKey) i).getD i KeyPad.inf)
          ((segMinK n inv (tab n fun i => legacyKey filled (ks.map toKey) i)).getD (inv.getD i 0) KeyPad.inf) && isFilled filled i then i else n) 0 hp]
    rw [hpg, s2 hno, htab p hp, htabK p hp]
    have : legacyKeyN filled ks p ≠ none := fun e => hno ⟨p, hp, hpg, by rw [htab p hp]; exact e⟩
    rw [← toKey_legacy]
    cases hkp : legacyKeyN filled ks p with
    | none => exact absurd hkp this
    | some a => rfl
  by_cases hex : ∃ p, p < n ∧ inv.getD p 0 = inv.getD i 0 ∧ (tab n fun i => legacyKeyN filled ks i).getD p (some KeyPad.inf) = none
  · -- a NaN in the group: no winner
    have hwin : (legacyWinnersN n inv ks filled).getD (inv.getD i 0) 0 = n := by
      obtain ⟨_, _, h3⟩ := segMin_spec (n := n) (init := n) (gids := inv)
        (vals := tab n fun i => if eqN ((tab n fun i => legacyKeyN filled ks i).getD i (some KeyPad.inf))
          ((segMinN n inv (tab n fun i => legacyKeyN filled ks i)).getD (inv.getD i 0) (some KeyPad.inf)) && isFilled filled i then i else n) (by simp [hinvl]) hg
      rcases h3 with e | ⟨p, hp, hpg, e⟩
      · exact e
      · rw [hinvl] at hp
        rw [tab_getD _ _ hp, hpg, s1 hex] at e
        have hf : ∀ o : Option K, eqN o none = false := fun o => by cases o <;> rfl
        rw [hf] at e
        exact e
    rw [hwin]
    have hne : (i == n) = false := by simp; omega
    rw [hne, Bool.false_and]
    refine ⟨fun h => (by cases h), fun ⟨h, _⟩ => ?_⟩
    exfalso
    obtain ⟨p, hp, hpg, hpn⟩ := hex
    rw [htab p hp] at hpn
    have hfp : isFilled filled p = true := by
      cases hfp : isFilled filled p with
      | true => rfl
      | false =>
        cases filled with
        | none => cases hfp
        | some f => simp only [isFilled] at hfp; simp only [legacyKeyN, hfp] at hpn; cases hpn
    rw [legacyKeyN_filled ks hfp] at hpn
    exact h p hp hfp ((hiff p i hp hi).1 hpg).1 ((hnone p hp).2 hpn)
  · rw [hagree hex]
    have hbel : ∀ o : Option K, belowInf o = !KeyCmp.le KeyPad.inf (toKey o) := fun o => by
      cases o with
      | none => simp [belowInf, toKey, KeyLE.refl]
      | some a => rfl
    have hlast : keyOkN filled ks i =
        keyOk filled (ks.map toKey) i := by
      cases filled with
      | none => simp only [keyOkN, keyOk, hbel, toKey_getD]
      | some f => rfl
    rw [hlast]
    refine ⟨fun h => ⟨fun j hj hfj hr hn => ?_, h⟩, fun h => h.2⟩
    cases hfi : isFilled filled i with
    | false =>
      have := hspec hfi
      rw [this] at h
      have hne : (i == n) = false := by simp; omega
      rw [hne, Bool.false_and] at h; cases h
    | true =>
      apply hex
      refine ⟨j, hj, (hiff j i hj hi).2 ⟨hr, by rw [hfj, hfi]⟩, ?_⟩
      rw [htab j hj, legacyKeyN_filled ks hfj]
      exact (hnone j hj).1 hn

/-- The two versions differ on NaN keys: one entry with a NaN key makes the legacy version mark no entry of its group, the optimized version skips that entry only. -/
theorem legacy_nan_false : legacyMaskN (K := Option Nat) 3 1 [[7], [7], [5]] [none, some (some 2), some (some 3)] none = [false, false, true] ∧
    (uniqueCall (K := Option Nat) false false 3 1 [[7], [7], [5]] (.float [none, some (some 2), some (some 3)]) none none none none).map (fun r => r.mask) =
      some [false, true, true] := by decide +kernel

end Unique
