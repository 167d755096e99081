import Verif.UniqueArgsModel
import Verif.UniqueLegacy

/-!
# `xnp.unique_mask` with arguments of every kind (C87)
-/

namespace Unique

open Jax SortGroup Dedupe

/-! ## Sorted groups when equality is finer than the order -/

section Groups

variable {n : Nat} {les : List (Nat → Nat → Bool)} {R : Nat → Nat → Prop} {perm : List Nat} {same : Nat → Nat → Bool} {nan eff : Nat → Bool}

theorem groupFirst_nan (h : ∀ le ∈ les, IsOrder le) (hR : ∀ a b, R a b → ¬ R b a) (hp : perm.Perm (List.range n)) (hs : perm.Pairwise (Lex R les))
    (hsame : ∀ a b, same a b = true ↔ sameAll les a b = true ∧ nan b = false) {p i : Nat} (hpi : perm[p]? = some i) :
    (groupStarts same perm).getD p false = true ↔ ∀ j, j < n → same j i = true → j = i ∨ R i j := by
  have hpl : p < perm.length := (List.getElem?_eq_some_iff.1 hpi).1
  have hi : perm.getD p 0 = i := getD_of_getElem? hpi
  cases hn : nan i with
  | true =>
    have hfalse : ∀ j, same j i = false := fun j => by
      cases hc : same j i with
      | false => rfl
      | true => have := ((hsame j i).1 hc).2; rw [hn] at this; cases this
    constructor
    · intro _ j _ hj; rw [hfalse] at hj; cases hj
    · intro _
      cases p with
      | zero => rfl
      | succ p => rw [groupStarts_succ _ _ _ hpl, hi, hfalse]; rfl
  | false =>
    have heq : ∀ j, same j i = sameAll les j i := fun j => by
      rw [Bool.eq_iff_iff, hsame, hn]; simp
    have : (groupStarts same perm).getD p false = (groupStarts (sameAll les) perm).getD p false := by
      cases p with
      | zero => rfl
      | succ p => rw [groupStarts_succ _ _ _ hpl, groupStarts_succ _ _ _ hpl, hi, heq]
    rw [this, groupFirst_tie h hR hp hs hpi]
    simp only [heq]

/-- `mask_sorted`. -/
def flags (n : Nat) (same : Nat → Nat → Bool) (eff : Nat → Bool) (perm : List Nat) : List Bool :=
  tab n fun p => (groupStarts same perm).getD p false && eff (perm.getD p 0)

theorem flags_length : (flags n same eff perm).length = n := by simp [flags]

theorem flags_pos (h : ∀ le ∈ les, IsOrder le) (hR : ∀ a b, R a b → ¬ R b a) (hp : perm.Perm (List.range n)) (hs : perm.Pairwise (Lex R les))
    (hsame : ∀ a b, same a b = true ↔ sameAll les a b = true ∧ nan b = false) {p i : Nat} (hpi : perm[p]? = some i) :
    (flags n same eff perm).getD p false = true ↔ eff i = true ∧ ∀ j, j < n → same j i = true → j = i ∨ R i j := by
  have hpn : p < n := by
    have := (List.getElem?_eq_some_iff.1 hpi).1
    rwa [perm_range_length hp] at this
  unfold flags
  rw [tab_getD _ _ hpn, Bool.and_eq_true, getD_of_getElem? hpi, groupFirst_nan h hR hp hs hsame hpi]
  exact And.comm

theorem mask_at (h : ∀ le ∈ les, IsOrder le) (hR : ∀ a b, R a b → ¬ R b a) (hp : perm.Perm (List.range n)) (hs : perm.Pairwise (Lex R les))
    (hsame : ∀ a b, same a b = true ↔ sameAll les a b = true ∧ nan b = false) {i : Nat} (hi : i < n) :
    (scatterSet (List.replicate n false) perm (flags n same eff perm)).getD i false = true ↔
      eff i = true ∧ ∀ j, j < n → same j i = true → j = i ∨ R i j := by
  obtain ⟨p, _, hpi⟩ := perm_range_pos hp hi
  rw [← flags_pos (eff := eff) h hR hp hs hsame hpi, List.getD_eq_getElem?_getD, scatter_perm hp false _ flags_length hpi, ← List.getD_eq_getElem?_getD]

/-- The group number of an entry is the place of the marked entry of its group. -/
theorem group_place (h : ∀ le ∈ les, IsOrder le) (hR : ∀ a b, R a b → ¬ R b a) (hp : perm.Perm (List.range n)) (hs : perm.Pairwise (Lex R les))
    (hsame : ∀ a b, same a b = true ↔ sameAll les a b = true ∧ nan b = false) (hnan : ∀ a b, sameAll les a b = true → nan a = nan b)
    (hlater : ∀ i j, i < n → j < n → eff i = true → ¬ eff j = true → same j i = true → R i j) {p i : Nat} (hi : i < n) (hv : eff i = true) (hpi : perm[p]? = some i) :
    ∃ g a, (cumsum 0 ((flags n same eff perm).map Bool.toNat)).getD p 0 = g + 1 ∧ (compress perm (flags n same eff perm))[g]? = some a ∧ a < n ∧ eff a = true ∧
      (a = i ∨ same a i = true) := by
  have hlen := perm_range_length hp
  have hpn : p < n := by have := (List.getElem?_eq_some_iff.1 hpi).1; omega
  generalize hst : groupStarts same perm = st
  have hst0 : st.getD 0 false = true := by rw [← hst]; rfl
  obtain ⟨s, hsp, hs1, hs2⟩ := last_start (fun q => st.getD q false) hst0 p
  have hsn : s < n := by omega
  have hstep : ∀ q, s ≤ q → q + 1 ≤ p → same (perm.getD q 0) (perm.getD (q + 1) 0) = true := fun q h1 h2 => by
    have h3 := hs2 (q + 1) (by omega) h2
    change st.getD (q + 1) false = false at h3
    rw [← hst, groupStarts_succ _ _ _ (by omega)] at h3
    simpa using h3
  have hchain : ∀ q, s ≤ q → q ≤ p → q = s ∨ same (perm.getD s 0) (perm.getD q 0) = true := by
    intro q
    induction q with
    | zero => intro h1 _; exact Or.inl (by omega)
    | succ q ih =>
      intro h1 h2
      by_cases e : q + 1 = s
      · exact Or.inl e
      · right
        have hq := hstep q (by omega) h2
        rcases ih (by omega) (by omega) with e' | h'
        · rw [← e']; exact hq
        · rw [hsame] at hq h' ⊢
          exact ⟨sameAll_trans h h'.1 hq.1, hq.2⟩
  have hpi' : perm.getD p 0 = i := getD_of_getElem? hpi
  have hsp' : perm[s]? = some (perm.getD s 0) := getElem?_of_lt 0 (by omega)
  have han := perm_range_lt hp hsp'
  have hsi : perm.getD s 0 = i ∨ same (perm.getD s 0) i = true := by
    rcases hchain p hsp (Nat.le_refl _) with e | e
    · left; rw [← e, hpi']
    · right; rwa [hpi'] at e
  have hva : eff (perm.getD s 0) = true := by
    rcases hsi with e | hsi
    · rw [e]; exact hv
    · apply Classical.byContradiction
      intro hna
      have h1 := hlater i _ hi han hv hna hsi
      have hsa := (hsame _ _).1 hsi
      have h2 := (groupFirst_nan h hR hp hs hsame hsp').1 (by rw [hst]; exact hs1) i hi
        ((hsame _ _).2 ⟨sameAll_symm hsa.1, by rw [hnan _ _ hsa.1]; exact hsa.2⟩)
      rcases h2 with e | h2
      · rw [← e] at hna; exact hna hv
      · exact hR _ _ h1 h2
  have hms : ∀ q, q < n → (flags n same eff perm).getD q false = (st.getD q false && eff (perm.getD q 0)) := fun q hq => by
    unfold flags; rw [tab_getD _ _ hq, hst]
  have hml : (flags n same eff perm).length = n := flags_length
  have hmss : (flags n same eff perm).getD s false = true := by
    rw [hms s hsn, hva]; simpa using hs1
  have hcnt : ∀ q, s ≤ q → q ≤ p → cnt (flags n same eff perm) (q + 1) = cnt (flags n same eff perm) s + 1 := by
    intro q
    induction q with
    | zero =>
      intro h1 _
      have : s = 0 := by omega
      subst this
      rw [cnt_succ (by omega), hmss]; rfl
    | succ q ih =>
      intro h1 h2
      by_cases e : s = q + 1
      · subst e; rw [cnt_succ (by omega), hmss]; rfl
      · have h3 := hs2 (q + 1) (by omega) h2
        change st.getD (q + 1) false = false at h3
        rw [cnt_succ (by omega), ih (by omega) (by omega), hms _ (by omega), h3]; rfl
  refine ⟨cnt (flags n same eff perm) s, perm.getD s 0, ?_, ?_, han, hva, hsi⟩
  · rw [cumsum_cnt (by omega), hcnt p hsp (Nat.le_refl _)]
  · rw [compress_getElem? (by omega) hmss, hsp']

end Groups

/-! ## Columns -/

variable {C : Type v} [Inhabited C] [LawfulCol C] {K : Type u} [KeyTop K]

/-- The column order. -/
def lesC (x64 : Bool) (k : Nat) (rows : List (List C)) (eff : Nat → Bool) : List (Nat → Nat → Bool) := (columnsC x64 k rows eff).map Prod.fst

/-- Equal in every column. -/
def sameC (x64 : Bool) (k : Nat) (rows : List (List C)) (eff : Nat → Bool) (i j : Nat) : Bool := (columnsC x64 k rows eff).all fun c => c.2 i j

/-- A column that is not hashed has a NaN. -/
def nanC (x64 : Bool) (k : Nat) (rows : List (List C)) (eff : Nat → Bool) (i : Nat) : Bool :=
  decide (k ≤ direct x64) && (List.range k).any fun c => ColTy.isNaN (cell rows eff c i)

theorem lesC_isOrder (x64 : Bool) (k : Nat) (rows : List (List C)) (eff : Nat → Bool) : ∀ le ∈ lesC x64 k rows eff, IsOrder le := by
  intro le hle
  unfold lesC columnsC at hle
  by_cases hk : k ≤ direct x64
  · rw [if_pos hk, List.map_map] at hle
    obtain ⟨c, _, rfl⟩ := List.mem_map.1 hle
    exact ⟨fun _ _ _ => LawfulCol.trans _ _ _, fun _ _ => LawfulCol.total _ _⟩
  · rw [if_neg hk, List.map_map] at hle
    obtain ⟨c, _, rfl⟩ := List.mem_map.1 hle
    exact leBy_isOrder _

theorem sameC_iff (x64 : Bool) (k : Nat) (rows : List (List C)) (eff : Nat → Bool) (i j : Nat) :
    sameC x64 k rows eff i j = true ↔ sameAll (lesC x64 k rows eff) i j = true ∧ nanC x64 k rows eff j = false := by
  rw [sameAll_iff]
  unfold sameC lesC columnsC nanC
  by_cases hk : k ≤ direct x64
  · simp only [if_pos hk, List.map_map, List.all_eq_true, List.mem_map, List.mem_range, forall_exists_index, and_imp, forall_apply_eq_imp_iff₂, Function.comp, decide_eq_true hk,
      Bool.true_and, List.any_eq_false, ColTy.eq, Bool.and_eq_true, Bool.not_eq_true']
    constructor
    · intro h
      exact ⟨fun c hc => ⟨(h c hc).1.2, (h c hc).2⟩, fun c hc => by rw [(h c hc).1.1.2]; simp⟩
    · rintro ⟨h1, h2⟩ c hc
      have hj : ColTy.isNaN (cell rows eff c j) = false := by have := h2 c hc; simpa using this
      exact ⟨⟨⟨(LawfulCol.nan_eqv _ _ (h1 c hc).1 (h1 c hc).2).trans hj, hj⟩, (h1 c hc).1⟩, (h1 c hc).2⟩
  · simp only [if_neg hk, List.map_map, List.all_eq_true, List.mem_map, List.mem_range, forall_exists_index, and_imp, forall_apply_eq_imp_iff₂, Function.comp, decide_eq_false hk,
      Bool.false_and, and_true, leBy, beq_iff_eq, decide_eq_true_eq]
    exact ⟨fun h c hc => by have := h c hc; omega, fun h c hc => by have := h c hc; omega⟩

theorem nanC_same (x64 : Bool) (k : Nat) (rows : List (List C)) (eff : Nat → Bool) (i j : Nat) (h : sameAll (lesC x64 k rows eff) i j = true) :
    nanC x64 k rows eff i = nanC x64 k rows eff j := by
  rw [sameAll_iff] at h
  unfold nanC
  by_cases hk : k ≤ direct x64
  · have : ∀ c, c < k → ColTy.isNaN (cell rows eff c i) = ColTy.isNaN (cell rows eff c j) := fun c hc => by
      have := h (fun i j => ColTy.le (cell rows eff c i) (cell rows eff c j)) (by
        unfold lesC columnsC
        rw [if_pos hk, List.map_map]
        exact List.mem_map.2 ⟨c, List.mem_range.2 hc, rfl⟩)
      exact LawfulCol.nan_eqv _ _ this.1 this.2
    congr 1
    rw [Bool.eq_iff_iff]
    simp only [List.any_eq_true, List.mem_range]
    exact ⟨fun ⟨c, hc, h⟩ => ⟨c, hc, by rw [← this c hc]; exact h⟩, fun ⟨c, hc, h⟩ => ⟨c, hc, by rw [this c hc]; exact h⟩⟩
  · rw [decide_eq_false hk]; rfl

/-! ## Keys -/

/-- Keys with `+inf` for NaN. -/
def numKeys (ks : List (Option K)) : List K := ks.map fun k => k.getD KeyPad.inf

theorem numKeys_getD (ks : List (Option K)) (i : Nat) : (numKeys ks).getD i KeyPad.inf = (ks.getD i none).getD KeyPad.inf := by
  unfold numKeys
  rw [List.getD_eq_getElem?_getD, List.getElem?_map, List.getD_eq_getElem?_getD]
  cases ks[i]? <;> rfl

theorem belowInf_some {o : Option K} (h : belowInf o = true) : ∃ k, o = some k ∧ KeyCmp.le KeyPad.inf k = false := by
  cases o with
  | none => cases h
  | some k => exact ⟨k, rfl, by simpa [belowInf] using h⟩

theorem effectiveC_key {filled : Option (List Bool)} {ks : List (Option K)} {i : Nat} (h : effectiveC filled (some ks) i = true) :
    ∃ k, ks[i]? = some (some k) ∧ KeyCmp.le KeyPad.inf k = false := by
  unfold effectiveC at h
  rw [Bool.and_eq_true] at h
  obtain ⟨k, h1, h2⟩ := belowInf_some h.2
  rw [List.getD_eq_getElem?_getD] at h1
  cases hi : ks[i]? with
  | none => rw [hi] at h1; cases h1
  | some o => rw [hi] at h1; exact ⟨k, by rw [← h1]; rfl, h2⟩

theorem getD_none_of {ks : List (Option K)} {i : Nat} {o : Option K} (h : ks[i]? = some o) : ks.getD i none = o := by
  rw [List.getD_eq_getElem?_getD, h]; rfl

theorem leNaN_eq (filled : Option (List Bool)) (ks : List (Option K)) :
    (fun i j => leNaN (validKeyC (effectiveC filled (some ks)) ks i) (validKeyC (effectiveC filled (some ks)) ks j)) =
      keyLe (effectiveC filled (some ks)) (numKeys ks) := by
  have hv : ∀ i, validKeyC (effectiveC filled (some ks)) ks i = some (validKey (effectiveC filled (some ks)) (numKeys ks) i) := fun i => by
    unfold validKeyC validKey
    by_cases h : effectiveC filled (some ks) i = true
    · rw [if_pos h, if_pos h, numKeys_getD]
      obtain ⟨k, h1, _⟩ := effectiveC_key h
      rw [getD_none_of h1]; rfl
    · rw [if_neg h, if_neg h]
  funext i j
  rw [hv, hv]
  rfl

theorem orderC_perm (n : Nat) (cols : List ((Nat → Nat → Bool) × (Nat → Nat → Bool))) (eff : Nat → Bool) (key : Option (List (Option K))) :
    (orderC n cols eff key).Perm (List.range n) := by
  unfold orderC
  refine (sortPasses_perm _ _).trans ?_
  cases key with
  | none => exact List.Perm.refl _
  | some ks => exact stableSort_perm _ _

theorem orderC_lex (n : Nat) (cols : List ((Nat → Nat → Bool) × (Nat → Nat → Bool))) (hcols : ∀ le ∈ cols.map Prod.fst, IsOrder le) (filled : Option (List Bool))
    (key : Option (List (Option K))) :
    (orderC n cols (effectiveC filled key) key).Pairwise (Lex (tie (effectiveC filled key) (key.map numKeys)) (cols.map Prod.fst)) := by
  unfold orderC
  refine sortPasses_lex _ _ ?_ hcols
  cases key with
  | none => exact range_pairwise_lt n
  | some ks =>
    dsimp only
    rw [leNaN_eq]
    exact stableSort_refine (keyLe_isOrder _ _).1 (keyLe_isOrder _ _).2 _ (range_pairwise_lt n)

/-! ## Specification -/

/-- Entry `i` counts: it is filled, and its key, if keys are given, is a number below `+inf`. -/
def ValidC (filled : Option (List Bool)) (key : Option (List (Option K))) (i : Nat) : Prop :=
  (∀ f, filled = some f → f[i]? = some true) ∧
  ∀ ks, key = some ks → ∃ k, ks[i]? = some (some k) ∧ KeyCmp.le KeyPad.inf k = false

/-- Entry `i` is preferred to entry `j`: smaller key, or equal keys and not later. -/
def PreferredC (key : Option (List (Option K))) (i j : Nat) : Prop :=
  match key with
  | none => i ≤ j
  | some ks => ∃ a b, ks[i]? = some (some a) ∧ ks[j]? = some (some b) ∧ KeyCmp.le a b = true ∧ (KeyCmp.le b a = true → i ≤ j)

/-- The values of `key_fn` are equal (as the dtype compares them: NaN is equal to nothing, `-0.0` to `0.0`). -/
def RowEq (r s : List C) : Prop := r.length = s.length ∧ ∀ (c : Nat) (a b : C), r[c]? = some a → s[c]? = some b → ColTy.eq a b = true

/-- Entry `i` is the representative of the entries with its `key_fn` value. -/
def IsRepC (n : Nat) (rows : List (List C)) (filled : Option (List Bool)) (key : Option (List (Option K))) (i : Nat) : Prop :=
  ValidC filled key i ∧ ∀ j, j < n → ValidC filled key j → RowEq (rows.getD j []) (rows.getD i []) → PreferredC key i j

/-- The hash does not identify two entries with different `key_fn` values; at most 4 values (2 under x64) are not hashed. -/
def NoCollisionC (x64 : Bool) (n k : Nat) (rows : List (List C)) (key : Option (List (Option K))) (filled : Option (List Bool)) : Prop :=
  k ≤ direct x64 ∨ ∀ i j, i < n → j < n → i ≠ j → ValidC filled key i → ValidC filled key j →
    wide x64 ((rows.getD i []).map (ColTy.word x64)) = wide x64 ((rows.getD j []).map (ColTy.word x64)) → RowEq (rows.getD i []) (rows.getD j [])

/-- No valid entry can be confused with the placeholder of the others: a `key` is given, or nothing is masked out ahead of a valid entry that has the greatest value of the
dtype in every column. -/
def NoSentinelC (x64 : Bool) (n k : Nat) (rows : List (List C)) (key : Option (List (Option K))) (filled : Option (List Bool)) : Prop :=
  key.isSome = true ∨ filled = none ∨ ∀ i, i < n → ValidC filled key i → (∀ j, j < i → ValidC filled key j) ∨
    if k ≤ direct x64 then ∃ a ∈ rows.getD i [], ColTy.eq ColTy.maxVal a = false
    else ∃ w ∈ wide x64 ((rows.getD i []).map (ColTy.word x64)), w ≠ if x64 = true then 0xFFFFFFFFFFFFFFFF else 0xFFFFFFFF

/-- The placeholder is the greatest value of the dtype, for `uint32` and `int32`. -/
theorem placeholder_greatest :
    ((ColTy.maxVal : Nat) < 2 ^ 32 ∧ ∀ v : Nat, v < 2 ^ 32 → ColTy.le v ColTy.maxVal = true) ∧
    (-2 ^ 31 ≤ (ColTy.maxVal : Int) ∧ (ColTy.maxVal : Int) < 2 ^ 31 ∧ ∀ v : Int, v < 2 ^ 31 → ColTy.le v ColTy.maxVal = true) := by
  refine ⟨⟨?_, fun v h => ?_⟩, ?_, ?_, fun v h => ?_⟩
  · show 2 ^ 32 - 1 < 2 ^ 32; omega
  · show decide (v ≤ 2 ^ 32 - 1) = true; simp only [decide_eq_true_eq]; omega
  · show (-2 ^ 31 : Int) ≤ 2 ^ 31 - 1; omega
  · show (2 ^ 31 - 1 : Int) < 2 ^ 31; omega
  · show decide (v ≤ 2 ^ 31 - 1) = true; simp only [decide_eq_true_eq]; omega

theorem getD_true {f : List Bool} {i : Nat} : f.getD i false = true ↔ f[i]? = some true := by
  rw [List.getD_eq_getElem?_getD]
  cases f[i]? <;> simp

theorem effectiveC_iff {filled : Option (List Bool)} {key : Option (List (Option K))} {i : Nat} : effectiveC filled key i = true ↔ ValidC filled key i := by
  have h1 : ∀ f : List Bool, f.getD i false = true ↔ f[i]? = some true := fun f => getD_true
  have h2 : ∀ ks : List (Option K), belowInf (ks.getD i none) = true ↔ ∃ k, ks[i]? = some (some k) ∧ KeyCmp.le KeyPad.inf k = false := fun ks => by
    constructor
    · intro h
      exact effectiveC_key (filled := none) (by unfold effectiveC; simpa using h)
    · rintro ⟨k, h1, h2⟩
      rw [getD_none_of h1]
      simp [belowInf, h2]
  unfold effectiveC ValidC
  rw [Bool.and_eq_true]
  refine and_congr ?_ ?_
  · cases filled with
    | none => simp
    | some f => simp only [h1, Option.some.injEq, forall_eq']
  · cases key with
    | none => simp
    | some ks => simp only [h2, Option.some.injEq, forall_eq']

theorem tieC_invalid {filled : Option (List Bool)} {ks : List (Option K)} {i j : Nat} (hi : effectiveC filled (some ks) i = true) (hj : ¬ effectiveC filled (some ks) j = true) :
    tie (effectiveC filled (some ks)) (some (numKeys ks)) i j := by
  have h1 : validKey (effectiveC filled (some ks)) (numKeys ks) j = KeyPad.inf := if_neg hj
  obtain ⟨k, hk, hlt⟩ := effectiveC_key hi
  have h2 : validKey (effectiveC filled (some ks)) (numKeys ks) i = k := by
    unfold validKey; rw [if_pos hi, numKeys_getD, getD_none_of hk]; rfl
  refine ⟨?_, ?_⟩
  · unfold keyLe; rw [h1]; exact KeyTop.le_inf _
  · intro h
    unfold keyLe at h
    rw [h1, h2, hlt] at h; cases h

theorem tieC_iff {filled : Option (List Bool)} {key : Option (List (Option K))} {i j : Nat} (hi : effectiveC filled key i = true) (hj : effectiveC filled key j = true) :
    (j = i ∨ tie (effectiveC filled key) (key.map numKeys) i j) ↔ PreferredC key i j := by
  cases key with
  | none => simp only [tie, PreferredC, Option.map_none]; omega
  | some ks =>
    obtain ⟨a, ha, _⟩ := effectiveC_key hi
    obtain ⟨b, hb, _⟩ := effectiveC_key hj
    have h1 : validKey (effectiveC filled (some ks)) (numKeys ks) i = a := by
      unfold validKey; rw [if_pos hi, numKeys_getD, getD_none_of ha]; rfl
    have h2 : validKey (effectiveC filled (some ks)) (numKeys ks) j = b := by
      unfold validKey; rw [if_pos hj, numKeys_getD, getD_none_of hb]; rfl
    simp only [tie, PreferredC, Option.map_some, Refine, keyLe, h1, h2, ha, hb, Option.some.injEq]
    constructor
    · rintro (rfl | ⟨p, q⟩)
      · rw [ha] at hb; cases hb
        exact ⟨_, _, rfl, rfl, KeyLE.refl _, fun _ => Nat.le_refl _⟩
      · exact ⟨_, _, rfl, rfl, p, fun h => Nat.le_of_lt (q h)⟩
    · rintro ⟨_, _, rfl, rfl, p, q⟩
      by_cases e : j = i
      · exact Or.inl e
      · exact Or.inr ⟨p, fun h => by have := q h; omega⟩

theorem rowEq_words {x64 : Bool} {r s : List C} (h : RowEq r s) : r.map (ColTy.word x64) = s.map (ColTy.word x64) := by
  apply List.ext_getElem?
  intro c
  rw [List.getElem?_map, List.getElem?_map]
  by_cases hc : c < r.length
  · have hs : c < s.length := h.1 ▸ hc
    have he := h.2 c _ _ (List.getElem?_eq_getElem hc) (List.getElem?_eq_getElem hs)
    simp only [ColTy.eq, Bool.and_eq_true, Bool.not_eq_true'] at he
    rw [List.getElem?_eq_getElem hc, List.getElem?_eq_getElem hs, Option.map_some, Option.map_some,
      LawfulCol.word_eq x64 _ _ he.1.2 he.2 he.1.1.2]
  · rw [List.getElem?_eq_none (by omega), List.getElem?_eq_none (by rw [← h.1]; omega)]

theorem sameC_hashed {x64 : Bool} {k : Nat} (hk : ¬ k ≤ direct x64) (rows : List (List C)) (eff : Nat → Bool) (i j : Nat) :
    sameC x64 k rows eff i j = sameAll (hashLes x64 k (rows.map fun r => r.map (ColTy.word x64)) eff) i j := by
  unfold sameC columnsC sameAll hashLes
  rw [if_neg hk, List.all_map, List.all_map]
  congr 1
  funext c
  simp only [Function.comp, leBy]
  rw [Bool.eq_iff_iff]
  simp only [beq_iff_eq, Bool.and_eq_true, decide_eq_true_eq]
  omega

theorem map_getD_words {x64 : Bool} (rows : List (List C)) (i : Nat) : (rows.map fun r => r.map (ColTy.word x64)).getD i [] = (rows.getD i []).map (ColTy.word x64) := by
  rw [List.getD_eq_getElem?_getD, List.getElem?_map, List.getD_eq_getElem?_getD]
  cases rows[i]? <;> rfl

/-- Two valid entries have equal columns iff their `key_fn` values are equal. -/
theorem sameC_rows {x64 : Bool} {n k : Nat} {rows : List (List C)} {key : Option (List (Option K))} {filled : Option (List Bool)}
    (hrows : ∀ i, i < n → (rows.getD i []).length = k) (hc : NoCollisionC x64 n k rows key filled) {i j : Nat} (hi : i < n) (hj : j < n) (hij : i ≠ j)
    (ei : effectiveC filled key i = true) (ej : effectiveC filled key j = true) :
    sameC x64 k rows (effectiveC filled key) i j = true ↔ RowEq (rows.getD i []) (rows.getD j []) := by
  by_cases hk : k ≤ direct x64
  · have hcell : ∀ i c, effectiveC filled key i = true → cell rows (effectiveC filled key) c i = (rows.getD i []).getD c default := fun i c h => if_pos h
    unfold sameC columnsC RowEq
    rw [if_pos hk]
    simp only [List.all_map, List.all_eq_true, List.mem_range, Function.comp]
    constructor
    · intro h
      refine ⟨by rw [hrows i hi, hrows j hj], fun c a b ha hb => ?_⟩
      have hck : c < k := by rw [← hrows i hi]; exact (List.getElem?_eq_some_iff.1 ha).1
      have := h c hck
      rw [hcell i c ei, hcell j c ej, getD_of_getElem? ha, getD_of_getElem? hb] at this
      exact this
    · rintro ⟨_, h⟩ c hck
      rw [hcell i c ei, hcell j c ej]
      have h1 : c < (rows.getD i []).length := by rw [hrows i hi]; exact hck
      have h2 : c < (rows.getD j []).length := by rw [hrows j hj]; exact hck
      rw [getD_of_getElem? (List.getElem?_eq_getElem h1), getD_of_getElem? (List.getElem?_eq_getElem h2)]
      exact h c _ _ (List.getElem?_eq_getElem h1) (List.getElem?_eq_getElem h2)
  · rw [sameC_hashed hk, same_iff (n := n) (fun i hi => by rw [map_getD_words, List.length_map]; exact hrows i hi) hi hj, if_pos ei, if_pos ej, map_getD_words, map_getD_words]
    constructor
    · intro h
      rcases hc with h' | hc
      · exact absurd h' hk
      · exact hc i j hi hj hij (effectiveC_iff.1 ei) (effectiveC_iff.1 ej) h
    · intro h; rw [rowEq_words h]

/-- Entries that do not count come after the valid ones of their columns. -/
theorem invalidC_later {x64 : Bool} {n k : Nat} {rows : List (List C)} {key : Option (List (Option K))} {filled : Option (List Bool)}
    (hrows : ∀ i, i < n → (rows.getD i []).length = k) (hs : NoSentinelC x64 n k rows key filled) {i j : Nat} (hi : i < n) (hj : j < n)
    (ei : effectiveC filled key i = true) (ej : ¬ effectiveC filled key j = true) (h : sameC x64 k rows (effectiveC filled key) j i = true) :
    tie (effectiveC filled key) (key.map numKeys) i j := by
  cases key with
  | some ks => exact tieC_invalid ei ej
  | none =>
    rcases hs with hs | hs | hs
    · cases hs
    · subst hs; exact absurd rfl ej
    · rcases hs i hi (effectiveC_iff.1 ei) with hs | hs
      · show i < j
        rcases Nat.lt_trichotomy i j with h' | h' | h'
        · exact h'
        · exact absurd (h' ▸ ei) ej
        · exact absurd (effectiveC_iff.2 (hs j h')) ej
      exfalso
      by_cases hk : k ≤ direct x64
      · rw [if_pos hk] at hs
        obtain ⟨a, ha, hne⟩ := hs
        obtain ⟨c, hc, rfl⟩ := List.getElem_of_mem ha
        have hck : c < k := by rw [← hrows i hi]; exact hc
        unfold sameC columnsC at h
        rw [if_pos hk] at h
        simp only [List.all_map, List.all_eq_true, List.mem_range, Function.comp] at h
        have := h c hck
        unfold cell at this
        rw [if_neg ej, if_pos ei, getD_of_getElem? (List.getElem?_eq_getElem hc), hne] at this
        cases this
      · rw [if_neg hk] at hs
        obtain ⟨w, hw, hne⟩ := hs
        rw [sameC_hashed hk, same_iff (n := n) (fun i hi => by rw [map_getD_words, List.length_map]; exact hrows i hi) hj hi, if_neg ej, if_pos ei, map_getD_words] at h
        rw [← h] at hw
        have h2 := (List.mem_replicate.1 hw).2
        apply hne
        rw [h2]
        unfold maxVal
        have hd : x64 = true → 2 < k := fun e => by subst e; simp only [direct, if_true] at hk; omega
        cases x64 with
        | true => rw [if_pos ⟨rfl, hd rfl⟩, if_pos rfl]
        | false => rfl

end Unique
