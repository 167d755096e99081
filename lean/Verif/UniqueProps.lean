import Verif.UniqueModel

/-!
# Properties of `unique_mask` (C42, C43)
-/

namespace Unique

open Jax SortGroup Dedupe

variable {K : Type u} [KeyTop K]

/-! ## Specification -/

/-- Entry `i` counts: it is filled, and its key (if any) is below `+inf`. -/
def Valid (filled : Option (List Bool)) (key : Option (List K)) (i : Nat) : Prop :=
  (∀ f, filled = some f → f.getD i false = true) ∧
  (∀ ks, key = some ks → KeyCmp.le KeyPad.inf (ks.getD i KeyPad.inf) = false)

/-- Entry `i` is preferred to entry `j`: smaller key, or equal keys and not later. -/
def Preferred (key : Option (List K)) (i j : Nat) : Prop :=
  match key with
  | none => i ≤ j
  | some ks => KeyCmp.le (ks.getD i KeyPad.inf) (ks.getD j KeyPad.inf) = true ∧
      (KeyCmp.le (ks.getD j KeyPad.inf) (ks.getD i KeyPad.inf) = true → i ≤ j)

/-- Entry `i` is the representative of its group of equal items. -/
def IsRep (n : Nat) (rows : List (List Nat)) (filled : Option (List Bool)) (key : Option (List K)) (i : Nat) : Prop :=
  Valid filled key i ∧ ∀ j, j < n → Valid filled key j → rows.getD j [] = rows.getD i [] → Preferred key i j

/-! ## Lemmas -/

theorem effective_iff {filled : Option (List Bool)} {key : Option (List K)} {i : Nat} :
    effective filled key i = true ↔ Valid filled key i := by
  unfold effective Valid
  cases filled <;> cases key <;> simp

/-- Order of equal hashes after the sort. -/
def tie (eff : Nat → Bool) (key : Option (List K)) (i j : Nat) : Prop :=
  match key with
  | none => i < j
  | some ks => Refine (keyLe eff ks) (· < ·) i j

theorem tie_asymm {eff : Nat → Bool} {key : Option (List K)} {i j : Nat} (h : tie eff key i j) : ¬ tie eff key j i := by
  cases key with
  | none => simp only [tie] at *; omega
  | some ks =>
    intro h'
    have h1 := h.2 h'.1
    have h2 := h'.2 h.1
    omega

theorem groupFirst_tie {n : Nat} {les : List (Nat → Nat → Bool)} (h : ∀ le ∈ les, IsOrder le) {R : Nat → Nat → Prop}
    (hR : ∀ a b, R a b → ¬ R b a) {sorted : List Nat}
    (hp : sorted.Perm (List.range n)) (hs : sorted.Pairwise (Lex R les)) {p i : Nat} (hpi : sorted[p]? = some i) :
    (groupStarts (sameAll les) sorted).getD p false = true ↔ ∀ j, j < n → sameAll les j i = true → j = i ∨ R i j := by
  have hlen := perm_range_length hp
  have hpl : p < sorted.length := (List.getElem?_eq_some_iff.1 hpi).1
  have hpw : ∀ q q', q < q' → q' < sorted.length → Lex R les (sorted.getD q 0) (sorted.getD q' 0) :=
    fun q q' h1 h2 => pairwise_getD hs h1 h2
  have hi : sorted.getD p 0 = i := getD_of_getElem? hpi
  constructor
  · intro hst j hj hsame
    obtain ⟨q, hq, hqj⟩ := perm_range_pos hp hj
    have hj' : sorted.getD q 0 = j := getD_of_getElem? hqj
    rcases Nat.lt_trichotomy q p with hqp | he | hpq
    · exfalso
      obtain ⟨p', rfl⟩ : ∃ p', p = p' + 1 := ⟨p - 1, by omega⟩
      rw [groupStarts_succ _ _ _ hpl] at hst
      have hne : sameAll les (sorted.getD p' 0) (sorted.getD (p' + 1) 0) = false := by simpa using hst
      rcases Nat.lt_or_ge q p' with hqp' | hqp'
      · have := lex_between h (hpw q p' hqp' (by omega)) (hpw p' (p' + 1) (by omega) hpl)
          (by rw [hj', hi]; exact hsame)
        rw [this.2] at hne; cases hne
      · have : q = p' := by omega
        subst this
        rw [hj', hi, hsame] at hne; cases hne
    · subst he; left; rw [← hj', hi]
    · right
      have := hpw p q hpq (by omega)
      rw [hi, hj'] at this
      exact lex_of_same this (sameAll_symm hsame)
  · intro hall
    cases p with
    | zero => rfl
    | succ p =>
      rw [groupStarts_succ _ _ _ hpl]
      cases hc : sameAll les (sorted.getD p 0) (sorted.getD (p + 1) 0) with
      | false => rfl
      | true =>
        exfalso
        have hlt : sorted.getD p 0 < n := perm_range_lt hp (getElem?_of_lt 0 (by omega))
        rw [hi] at hc
        rcases hall _ hlt hc with e | r
        · have h1 : sorted[p]? = some i := by rw [← e]; exact getElem?_of_lt 0 (by omega)
          have := nodup_getElem?_inj (perm_range_nodup hp) h1 hpi
          omega
        · have := hpw p (p + 1) (by omega) hpl
          rw [hi] at this
          exact hR _ _ r (lex_of_same this hc)

theorem hashLes_isOrder (x64 : Bool) (k : Nat) (rows : List (List Nat)) (eff : Nat → Bool) :
    ∀ le ∈ hashLes x64 k rows eff, IsOrder le := by
  intro le hle
  simp only [hashLes, List.mem_map] at hle
  obtain ⟨c, _, rfl⟩ := hle
  exact leBy_isOrder _

theorem keyLe_isOrder (eff : Nat → Bool) (ks : List K) : IsOrder (keyLe eff ks) :=
  ⟨fun _ _ _ => KeyLE.trans _ _ _, fun _ _ => KeyLE.total _ _⟩

theorem range_pairwise_lt (n : Nat) : (List.range n).Pairwise (· < ·) := List.pairwise_lt_range

theorem order_perm (x64 : Bool) (n k : Nat) (rows : List (List Nat)) (eff : Nat → Bool) (key : Option (List K)) :
    (order x64 n k rows eff key).Perm (List.range n) := by
  unfold order
  refine (sortPasses_perm _ _).trans ?_
  cases key with
  | none => exact List.Perm.refl _
  | some ks => exact stableSort_perm _ _

theorem order_lex (x64 : Bool) (n k : Nat) (rows : List (List Nat)) (eff : Nat → Bool) (key : Option (List K)) :
    (order x64 n k rows eff key).Pairwise (Lex (tie eff key) (hashLes x64 k rows eff)) := by
  unfold order
  refine sortPasses_lex _ _ ?_ (hashLes_isOrder _ _ _ _)
  cases key with
  | none => exact range_pairwise_lt n
  | some ks => exact stableSort_refine (keyLe_isOrder eff ks).1 (keyLe_isOrder eff ks).2 _ (range_pairwise_lt n)

theorem wide_length (x64 : Bool) {k : Nat} {row : List Nat} (h : row.length = k) : (wide x64 row).length = wideCols x64 k := by
  unfold wide wideCols
  rw [h]
  by_cases hk : k ≤ (if x64 then 2 else 4)
  · rw [if_pos hk, if_pos hk]; exact h
  · rw [if_neg hk, if_neg hk]; cases x64 <;> rfl

/-- Equal (masked) hash columns: both valid with equal wide hashes, both invalid, or one invalid and the other all ones. -/
theorem same_iff {x64 : Bool} {k n : Nat} {rows : List (List Nat)} (hrows : ∀ i, i < n → (rows.getD i []).length = k)
    {eff : Nat → Bool} {i j : Nat} (hi : i < n) (hj : j < n) :
    sameAll (hashLes x64 k rows eff) i j = true ↔
      (if eff i then wide x64 (rows.getD i []) else List.replicate (wideCols x64 k) (maxVal x64 k)) =
      (if eff j then wide x64 (rows.getD j []) else List.replicate (wideCols x64 k) (maxVal x64 k)) := by
  have hcol : ∀ i, i < n → ∀ c, c < wideCols x64 k → column x64 k rows eff c i =
      (if eff i then wide x64 (rows.getD i []) else List.replicate (wideCols x64 k) (maxVal x64 k)).getD c 0 := by
    intro i _ c hc
    unfold column
    split
    · rfl
    · rw [List.getD_eq_getElem?_getD, List.getElem?_replicate, if_pos hc]; rfl
  have hl : ∀ i, i < n → (if eff i then wide x64 (rows.getD i []) else List.replicate (wideCols x64 k) (maxVal x64 k)).length
      = wideCols x64 k := by
    intro i hi
    split
    · exact wide_length x64 (hrows i hi)
    · simp
  rw [sameAll_iff]
  constructor
  · intro h
    apply List.ext_getElem?
    intro c
    by_cases hc : c < wideCols x64 k
    · have := h (leBy (column x64 k rows eff c)) (by
        simp only [hashLes, List.mem_map, List.mem_range]; exact ⟨c, hc, rfl⟩)
      have := leBy_same.1 this
      rw [hcol i hi c hc, hcol j hj c hc] at this
      rw [getElem?_of_lt 0 (by rw [hl i hi]; exact hc), getElem?_of_lt 0 (by rw [hl j hj]; exact hc), this]
    · rw [List.getElem?_eq_none (by rw [hl i hi]; omega), List.getElem?_eq_none (by rw [hl j hj]; omega)]
  · intro h le hle
    simp only [hashLes, List.mem_map, List.mem_range] at hle
    obtain ⟨c, hc, rfl⟩ := hle
    apply leBy_same.2
    rw [hcol i hi c hc, hcol j hj c hc, h]

/-- The value of `mask_sorted`. -/
def maskSorted (x64 : Bool) (n k : Nat) (rows : List (List Nat)) (key : Option (List K)) (filled : Option (List Bool)) :
    List Bool :=
  let eff := effective filled key
  let perm := order x64 n k rows eff key
  tab n fun p => (groupStarts (sameAll (hashLes x64 k rows eff)) perm).getD p false && eff (perm.getD p 0)

theorem uniqueMask_eq {x64 : Bool} {n k : Nat} {rows : List (List Nat)} {key : Option (List K)}
    {filled : Option (List Bool)} {size fill : Option Nat} (hn : 0 < n) (hk : 0 < k)
    (hkey : ∀ ks, key = some ks → ks.length = n) :
    uniqueMask x64 n k rows key filled size fill =
      let perm := order x64 n k rows (effective filled key) key
      let ms := maskSorted x64 n k rows key filled
      some ⟨scatterSet (List.replicate n false) perm ms, uniqueIndices perm ms n size fill,
        scatterSet (List.replicate n (0 : Int)) perm
          ((cumsum 0 (ms.map Bool.toNat)).map fun (x : Nat) => (x : Int) - 1)⟩ := by
  unfold uniqueMask
  rw [if_neg (by omega)]
  have h2 : wideCols x64 k ≠ 0 := by
    unfold wideCols
    cases x64 <;> (simp only [Bool.false_eq_true, if_true, if_false]; split <;> omega)
  rw [if_neg h2]
  cases key with
  | none => rfl
  | some ks =>
    rw [if_neg (by simpa using hkey ks rfl)]
    rfl

theorem maskSorted_pos {x64 : Bool} {n k : Nat} {rows : List (List Nat)} {key : Option (List K)}
    {filled : Option (List Bool)} {p i : Nat} (hpi : (order x64 n k rows (effective filled key) key)[p]? = some i) :
    (maskSorted x64 n k rows key filled).getD p false = true ↔ effective filled key i = true ∧
      ∀ j, j < n → sameAll (hashLes x64 k rows (effective filled key)) j i = true →
        j = i ∨ tie (effective filled key) key i j := by
  have hp := order_perm x64 n k rows (effective filled key) key
  have hpn : p < n := by
    have := (List.getElem?_eq_some_iff.1 hpi).1
    rwa [perm_range_length hp] at this
  unfold maskSorted
  simp only
  rw [tab_getD _ _ hpn, Bool.and_eq_true, getD_of_getElem? hpi,
    groupFirst_tie (hashLes_isOrder _ _ _ _) (fun a b => tie_asymm) hp (order_lex _ _ _ _ _ _) hpi]
  exact And.comm

theorem scatter_perm {α : Type} {n : Nat} {perm : List Nat} (hp : perm.Perm (List.range n)) (d : α) (v : List α)
    (hv : v.length = n) {p i : Nat} (hpi : perm[p]? = some i) :
    (scatterSet (List.replicate n d) perm v)[i]? = v[p]? := by
  have hin := perm_range_lt hp hpi
  have hpn : p < n := by
    have := (List.getElem?_eq_some_iff.1 hpi).1
    rwa [perm_range_length hp] at this
  rw [List.getElem?_eq_getElem (by omega : p < v.length)]
  exact scatterSet_mem _ _ _ p _ i hpi (List.getElem?_eq_getElem (by omega))
    (fun q hq => nodup_getElem?_inj (perm_range_nodup hp) hq hpi) (by simpa using hin)

/-- `unique_mask` in terms of the hashes: entry `i` is marked iff it is valid and comes before every other entry with the same
masked hashes. -/
theorem mask_iff {x64 : Bool} {n k : Nat} {rows : List (List Nat)} {key : Option (List K)}
    {filled : Option (List Bool)} {size fill : Option Nat} (hk : 0 < k)
    (hkey : ∀ ks, key = some ks → ks.length = n) {r : Result} (hr : uniqueMask x64 n k rows key filled size fill = some r) :
    r.mask.length = n ∧ ∀ i, i < n → (r.mask.getD i false = true ↔ effective filled key i = true ∧
      ∀ j, j < n → sameAll (hashLes x64 k rows (effective filled key)) j i = true →
        j = i ∨ tie (effective filled key) key i j) := by
  rcases Nat.eq_zero_or_pos n with h0 | hn
  · subst h0
    simp only [uniqueMask, if_true] at hr
    cases hr
    exact ⟨rfl, fun i hi => absurd hi (by omega)⟩
  · rw [uniqueMask_eq hn hk hkey] at hr
    simp only [Option.some.injEq] at hr
    subst hr
    have hp := order_perm x64 n k rows (effective filled key) key
    refine ⟨by simp, fun i hi => ?_⟩
    obtain ⟨p, hpn, hpi⟩ := perm_range_pos hp hi
    rw [← maskSorted_pos hpi]
    simp only
    rw [List.getD_eq_getElem?_getD, scatter_perm hp false _ (by simp [maskSorted]) hpi, ← List.getD_eq_getElem?_getD]

theorem uniqueMask_total {x64 : Bool} {n k : Nat} {rows : List (List Nat)} {key : Option (List K)}
    {filled : Option (List Bool)} {size fill : Option Nat} (hk : 0 < k)
    (hkey : ∀ ks, key = some ks → ks.length = n) : ∃ r, uniqueMask x64 n k rows key filled size fill = some r := by
  rcases Nat.eq_zero_or_pos n with h0 | hn
  · subst h0; exact ⟨⟨[], [], []⟩, by simp only [uniqueMask, if_true]⟩
  · exact ⟨_, uniqueMask_eq hn hk hkey⟩

theorem tie_of_invalid {filled : Option (List Bool)} {ks : List K} {i j : Nat}
    (hi : effective filled (some ks) i = true) (hj : ¬ effective filled (some ks) j = true) :
    tie (effective filled (some ks)) (some ks) i j := by
  have h1 : validKey (effective filled (some ks)) ks j = KeyPad.inf := if_neg hj
  have h2 : validKey (effective filled (some ks)) ks i = ks.getD i KeyPad.inf := if_pos hi
  refine ⟨?_, ?_⟩
  · unfold keyLe; rw [h1]; exact KeyTop.le_inf _
  · intro h
    unfold keyLe at h
    rw [h1, h2] at h
    have := (effective_iff.1 hi).2 ks rfl
    rw [this] at h; cases h

theorem tie_iff_preferred {filled : Option (List Bool)} {key : Option (List K)} {i j : Nat}
    (hi : effective filled key i = true) (hj : effective filled key j = true) :
    (j = i ∨ tie (effective filled key) key i j) ↔ Preferred key i j := by
  cases key with
  | none => simp only [tie, Preferred]; omega
  | some ks =>
    have h1 : validKey (effective filled (some ks)) ks j = ks.getD j KeyPad.inf := if_pos hj
    have h2 : validKey (effective filled (some ks)) ks i = ks.getD i KeyPad.inf := if_pos hi
    simp only [tie, Preferred, Refine, keyLe, h1, h2]
    constructor
    · rintro (rfl | ⟨a, b⟩)
      · exact ⟨KeyLE.refl _, fun _ => Nat.le_refl _⟩
      · exact ⟨a, fun h => Nat.le_of_lt (b h)⟩
    · rintro ⟨a, b⟩
      by_cases e : j = i
      · exact Or.inl e
      · exact Or.inr ⟨a, fun h => by have := b h; omega⟩

/-- No valid entry can be confused with the placeholder given to invalid entries: a `key` is given, or nothing is masked out, or
a valid item with all-ones hash columns has only valid entries ahead of it (as in a batch padded at its end). -/
def NoSentinel (x64 : Bool) (n k : Nat) (rows : List (List Nat)) (key : Option (List K)) (filled : Option (List Bool)) : Prop :=
  key.isSome = true ∨ filled = none ∨
    ∀ i, i < n → Valid filled key i → (∀ j, j < i → Valid filled key j) ∨ ∃ w ∈ wide x64 (rows.getD i []), w ≠ if x64 = true ∧ 2 < k then 0xFFFFFFFFFFFFFFFF else 0xFFFFFFFF

/-- The hash does not identify two distinct valid items of the batch. -/
def NoCollision (x64 : Bool) (n : Nat) (rows : List (List Nat)) (key : Option (List K)) (filled : Option (List Bool)) : Prop :=
  ∀ i j, i < n → j < n → Valid filled key i → Valid filled key j →
    wide x64 (rows.getD i []) = wide x64 (rows.getD j []) → rows.getD i [] = rows.getD j []

theorem same_row {x64 : Bool} {n k : Nat} {rows : List (List Nat)} {key : Option (List K)} {filled : Option (List Bool)}
    (hrows : ∀ i, i < n → (rows.getD i []).length = k) (hc : NoCollision x64 n rows key filled) {i j : Nat} (hi : i < n) (hj : j < n)
    (ei : effective filled key i = true) (ej : effective filled key j = true) :
    sameAll (hashLes x64 k rows (effective filled key)) i j = true ↔ rows.getD i [] = rows.getD j [] := by
  rw [same_iff hrows hi hj, if_pos ei, if_pos ej]
  exact ⟨hc i j hi hj (effective_iff.1 ei) (effective_iff.1 ej), fun h => by rw [h]⟩

theorem invalid_later {x64 : Bool} {n k : Nat} {rows : List (List Nat)} {key : Option (List K)} {filled : Option (List Bool)}
    (hrows : ∀ i, i < n → (rows.getD i []).length = k) (hs : NoSentinel x64 n k rows key filled) {i j : Nat} (hi : i < n) (hj : j < n)
    (ei : effective filled key i = true) (ej : ¬ effective filled key j = true)
    (h : sameAll (hashLes x64 k rows (effective filled key)) j i = true) : tie (effective filled key) key i j := by
  cases key with
  | some ks => exact tie_of_invalid ei ej
  | none =>
    rcases hs with hs | hs | hs
    · cases hs
    · subst hs; exact absurd rfl ej
    · rcases hs i hi (effective_iff.1 ei) with hs | ⟨w, hw, hne⟩
      · show i < j
        rcases Nat.lt_trichotomy i j with h' | h' | h'
        · exact h'
        · exact absurd (h' ▸ ei) ej
        · exact absurd (effective_iff.2 (hs j h')) ej
      · exfalso
        rw [same_iff hrows hj hi, if_neg ej, if_pos ei] at h
        rw [← h] at hw
        exact hne (List.mem_replicate.1 hw).2

/-- **C42** (partial: the hash must not identify two distinct items of the batch, and without `key` no valid item may hash to the
placeholder).  `unique_mask` returns a mask of the batch length that is `True` exactly at the representatives: valid entries
preferred — smallest key, then earliest — to every valid entry with an equal item. -/
theorem unique_mask_spec_partial {x64 : Bool} {n k : Nat} {rows : List (List Nat)} {key : Option (List K)}
    {filled : Option (List Bool)} (size fill : Option Nat) (hk : 0 < k) (hrows : ∀ i, i < n → (rows.getD i []).length = k)
    (hkey : ∀ ks, key = some ks → ks.length = n) (hc : NoCollision x64 n rows key filled)
    (hs : NoSentinel x64 n k rows key filled) :
    ∃ r, uniqueMask x64 n k rows key filled size fill = some r ∧ r.mask.length = n ∧
      ∀ i, i < n → (r.mask.getD i false = true ↔ IsRep n rows filled key i) := by
  obtain ⟨r, hr⟩ := uniqueMask_total (x64 := x64) (rows := rows) (filled := filled) (size := size) (fill := fill) hk hkey
  obtain ⟨h1, h2⟩ := mask_iff hk hkey hr
  refine ⟨r, hr, h1, fun i hi => ?_⟩
  rw [h2 i hi]
  unfold IsRep
  rw [← effective_iff]
  refine and_congr_right fun ei => ?_
  constructor
  · intro h j hj vj he
    have ej := effective_iff.2 vj
    exact (tie_iff_preferred ei ej).1 (h j hj ((same_row hrows hc hj hi ej ei).2 he))
  · intro h j hj hsame
    by_cases ej : effective filled key j = true
    · exact (tie_iff_preferred ei ej).2 (h j hj (effective_iff.1 ej) ((same_row hrows hc hj hi ej ei).1 hsame))
    · exact Or.inr (invalid_later hrows hs hi hj ei ej hsame)

/-- Rows that need no hashing: at most 4 words (2 under x64).  Then the first hypothesis is met. -/
theorem noCollision_small {x64 : Bool} {n k : Nat} {rows : List (List Nat)} {key : Option (List K)} {filled : Option (List Bool)}
    (hrows : ∀ i, i < n → (rows.getD i []).length = k) (hk : k ≤ (if x64 then 2 else 4)) :
    NoCollision x64 n rows key filled := by
  intro i j hi hj _ _ h
  unfold wide at h
  rw [if_pos (by rw [hrows i hi]; exact hk), if_pos (by rw [hrows j hj]; exact hk)] at h
  exact h

/-- Preference is total and antisymmetric, so a group of valid entries has exactly one representative. -/
theorem exists_rep {n : Nat} {rows : List (List Nat)} {filled : Option (List Bool)} {key : Option (List K)} {i : Nat} (hi : i < n)
    (hv : Valid filled key i) : ∃ a, a < n ∧ IsRep n rows filled key a ∧ rows.getD a [] = rows.getD i [] ∧
      ∀ b, b < n → IsRep n rows filled key b → rows.getD b [] = rows.getD i [] → b = a := by
  have trans : ∀ a b c, Preferred key a b → Preferred key b c → Preferred key a c := by
    intro a b c
    cases key with
    | none => simp only [Preferred]; omega
    | some ks =>
      simp only [Preferred]
      rintro ⟨h1, h2⟩ ⟨h3, h4⟩
      refine ⟨KeyLE.trans _ _ _ h1 h3, fun h => ?_⟩
      have := h2 (KeyLE.trans _ _ _ h3 h)
      have := h4 (KeyLE.trans _ _ _ h h1)
      omega
  have total : ∀ a b, Preferred key a b ∨ Preferred key b a := by
    intro a b
    cases key with
    | none => simp only [Preferred]; omega
    | some ks =>
      simp only [Preferred]
      cases h1 : KeyCmp.le (ks.getD a KeyPad.inf) (ks.getD b KeyPad.inf) with
      | false => right; exact ⟨KeyLE.le_of_not_le h1, fun h => by cases h⟩
      | true =>
        cases h2 : KeyCmp.le (ks.getD b KeyPad.inf) (ks.getD a KeyPad.inf) with
        | false => left; exact ⟨rfl, fun h => by cases h⟩
        | true => rcases Nat.le_total a b with h | h
                  · exact Or.inl ⟨rfl, fun _ => h⟩
                  · exact Or.inr ⟨rfl, fun _ => h⟩
  have antisymm : ∀ a b, Preferred key a b → Preferred key b a → a = b := by
    intro a b
    cases key with
    | none => simp only [Preferred]; omega
    | some ks =>
      simp only [Preferred]
      rintro ⟨h1, h2⟩ ⟨h3, h4⟩
      have := h2 h3; have := h4 h1; omega
  have step : ∀ m, ∃ a, a < n ∧ Valid filled key a ∧ rows.getD a [] = rows.getD i [] ∧
      ∀ j, j < m → j < n → Valid filled key j → rows.getD j [] = rows.getD i [] → Preferred key a j := by
    intro m
    induction m with
    | zero => exact ⟨i, hi, hv, rfl, fun j hj => absurd hj (by omega)⟩
    | succ m ih =>
      obtain ⟨a, h1, h2, h3, h4⟩ := ih
      by_cases hm : m < n ∧ Valid filled key m ∧ rows.getD m [] = rows.getD i [] ∧ Preferred key m a
      · refine ⟨m, hm.1, hm.2.1, hm.2.2.1, fun j hj hjn hvj hrj => ?_⟩
        by_cases e : j = m
        · subst e; rcases total j j with h | h <;> exact h
        · exact trans _ _ _ hm.2.2.2 (h4 j (by omega) hjn hvj hrj)
      · refine ⟨a, h1, h2, h3, fun j hj hjn hvj hrj => ?_⟩
        by_cases e : j = m
        · subst e
          rcases total a j with h | h
          · exact h
          · exact absurd ⟨hjn, hvj, hrj, h⟩ hm
        · exact h4 j (by omega) hjn hvj hrj
  obtain ⟨a, h1, h2, h3, h4⟩ := step n
  refine ⟨a, h1, ⟨h2, fun j hj hvj hrj => h4 j hj hj hvj (hrj.trans h3)⟩, h3, fun b hb hrep hrb => ?_⟩
  exact antisymm _ _ (hrep.2 a h1 h2 (h3.trans hrb.symm)) (h4 b hb hb hrep.1 hrb)

/-- **C42** for items of at most 4 words (2 under x64) with a `key`, or with all valid entries ahead of the others (no `filled`
mask, or a batch padded at its end): no further hypothesis.  Each group of
equal items with a valid member has exactly one marked entry; it is valid, of smallest key, and the earliest such; nothing else is
marked. -/
theorem unique_mask_exact_partial {x64 : Bool} {n k : Nat} {rows : List (List Nat)} {key : Option (List K)}
    {filled : Option (List Bool)} (size fill : Option Nat) (hk : 0 < k) (hk4 : k ≤ (if x64 then 2 else 4))
    (hrows : ∀ i, i < n → (rows.getD i []).length = k)
    (hkey : ∀ ks, key = some ks → ks.length = n) (hs : key.isSome = true ∨ ∀ i j, j < i → i < n → Valid filled key i → Valid filled key j) :
    ∃ r, uniqueMask x64 n k rows key filled size fill = some r ∧ r.mask.length = n ∧
      (∀ i, i < n → r.mask.getD i false = true → Valid filled key i) ∧
      ∀ i, i < n → Valid filled key i → ∃ a, a < n ∧ r.mask.getD a false = true ∧ rows.getD a [] = rows.getD i [] ∧
        (∀ j, j < n → Valid filled key j → rows.getD j [] = rows.getD i [] → Preferred key a j) ∧
        ∀ b, b < n → r.mask.getD b false = true → rows.getD b [] = rows.getD i [] → b = a := by
  obtain ⟨r, hr, h1, h2⟩ := unique_mask_spec_partial (x64 := x64) (rows := rows) (filled := filled) size fill hk hrows hkey
    (noCollision_small hrows hk4) (by rcases hs with h | h; exact Or.inl h; exact Or.inr (Or.inr fun i hi hv => Or.inl fun j hj => h i j hj hi hv))
  refine ⟨r, hr, h1, fun i hi hm => ((h2 i hi).1 hm).1, fun i hi hv => ?_⟩
  obtain ⟨a, ha, hrep, hra, huniq⟩ := exists_rep (rows := rows) hi hv
  exact ⟨a, ha, (h2 a ha).2 hrep, hra, fun j hj hvj hrj => hrep.2 j hj hvj (hrj.trans hra.symm),
    fun b hb hm hrb => huniq b hb ((h2 b hb).1 hm) hrb⟩

/-- Without any hypothesis on hashes or placeholders: marked entries are valid and pairwise distinct items. -/
theorem unique_mask_sound {x64 : Bool} {n k : Nat} {rows : List (List Nat)} {key : Option (List K)}
    {filled : Option (List Bool)} {size fill : Option Nat} (hk : 0 < k) (hrows : ∀ i, i < n → (rows.getD i []).length = k)
    (hkey : ∀ ks, key = some ks → ks.length = n) {r : Result} (hr : uniqueMask x64 n k rows key filled size fill = some r) :
    (∀ i, i < n → r.mask.getD i false = true → Valid filled key i) ∧
    ∀ i j, i < n → j < n → r.mask.getD i false = true → r.mask.getD j false = true → rows.getD i [] = rows.getD j [] → i = j := by
  obtain ⟨_, h2⟩ := mask_iff hk hkey hr
  refine ⟨fun i hi hm => effective_iff.1 ((h2 i hi).1 hm).1, fun i j hi hj mi mj he => ?_⟩
  obtain ⟨ei, hi'⟩ := (h2 i hi).1 mi
  obtain ⟨ej, hj'⟩ := (h2 j hj).1 mj
  have hs : sameAll (hashLes x64 k rows (effective filled key)) i j = true := by
    rw [same_iff hrows hi hj, if_pos ei, if_pos ej, he]
  rcases hj' i hi hs with h | h
  · exact h
  · rcases hi' j hj (sameAll_symm hs) with h' | h'
    · exact h'.symm
    · exact absurd h (tie_asymm h')

end Unique
