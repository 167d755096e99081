import Verif.UniqueProps

/-!
# `unique_mask` with `return_index` and `return_inverse` (C43)
-/

namespace Unique

open Jax SortGroup Dedupe

variable {K : Type u} [KeyTop K]

theorem compress_eq_filter {xs : List Nat} {m : List Bool} {f : Nat → Bool} (hl : xs.length = m.length)
    (h : ∀ (p i : Nat), xs[p]? = some i → m.getD p false = f i) : compress xs m = xs.filter f := by
  unfold compress
  induction xs generalizing m with
  | nil => simp
  | cons x xs ih =>
    cases m with
    | nil => simp at hl
    | cons b m =>
      have hb : b = f x := by simpa using h 0 x rfl
      have ih' := ih (m := m) (by simpa using hl) (fun p i hp => by simpa using h (p + 1) i (by simpa using hp))
      rw [List.zip_cons_cons, List.filter_cons, List.filter_cons]
      simp only
      rw [← hb]
      cases b
      · simpa using ih'
      · simpa using ih'

theorem compress_map_positions (xs : List Nat) (m : List Bool) (hl : xs.length = m.length) (ys : List Nat) :
    (compress (List.range m.length) m).map (fun q => (xs ++ ys).getD q 0) = compress xs m := by
  unfold compress
  rw [List.map_map]
  have e : xs.zip m = ((List.range m.length).zip m).map fun t => ((xs ++ ys).getD t.1 0, t.2) := by
    apply List.ext_getElem?
    intro i
    rw [List.getElem?_map]
    by_cases hi : i < m.length
    · have h1 : (xs.zip m)[i]? = some (xs[i], m[i]) := by
        rw [List.getElem?_zip_eq_some]
        exact ⟨List.getElem?_eq_getElem (by omega), List.getElem?_eq_getElem hi⟩
      have h2 : ((List.range m.length).zip m)[i]? = some (i, m[i]) := by
        rw [List.getElem?_zip_eq_some]
        exact ⟨List.getElem?_range hi, List.getElem?_eq_getElem hi⟩
      rw [h1, h2]
      simp only [Option.map_some, Option.some.injEq, Prod.mk.injEq, and_true]
      rw [List.getD_eq_getElem?_getD, List.getElem?_append_left (by omega), List.getElem?_eq_getElem (by omega)]
      rfl
    · rw [List.getElem?_eq_none (by simp; omega), List.getElem?_eq_none (by simp; omega)]; rfl
  rw [e, List.filter_map, List.map_map]
  rfl

/-- Number of `True`s before position `p`. -/
def cnt (m : List Bool) (p : Nat) : Nat := (m.take p).count true

theorem cnt_succ {m : List Bool} {p : Nat} (h : p < m.length) : cnt m (p + 1) = cnt m p + (m.getD p false).toNat := by
  unfold cnt
  rw [List.take_add_one, List.count_append, List.getD_eq_getElem?_getD, List.getElem?_eq_getElem h]
  cases m[p] <;> simp

theorem cumsum_cnt {m : List Bool} {p : Nat} (h : p < m.length) : (cumsum 0 (m.map Bool.toNat)).getD p 0 = cnt m (p + 1) := by
  induction p with
  | zero =>
    rw [cumsum_zero _ _ (by simpa using h), map_toNat_getD, cnt_succ h]
    simp [cnt]
  | succ p ih =>
    rw [cumsum_succ _ _ _ (by simpa using h), ih (by omega), map_toNat_getD, cnt_succ h]

theorem compress_getElem? {α : Type} {xs : List α} {m : List Bool} (hl : xs.length = m.length) {s : Nat}
    (h : m.getD s false = true) : (compress xs m)[cnt m s]? = xs[s]? := by
  unfold compress
  induction xs generalizing m s with
  | nil =>
    have : m = [] := List.length_eq_zero_iff.1 (by simpa using hl.symm)
    subst this; simp at h
  | cons x xs ih =>
    cases m with
    | nil => simp at hl
    | cons b m =>
      rw [List.zip_cons_cons, List.filter_cons]
      simp only
      cases s with
      | zero =>
        have : b = true := by simpa using h
        subst this
        simp [cnt]
      | succ s =>
        have ih' := ih (m := m) (s := s) (by simpa using hl) (by simpa using h)
        cases b
        · simpa [cnt] using ih'
        · simpa [cnt] using ih'

/-- The last position up to `p` whose flag is set, given that the first one is set. -/
theorem last_start (st : Nat → Bool) (h0 : st 0 = true) (p : Nat) :
    ∃ s, s ≤ p ∧ st s = true ∧ ∀ q, s < q → q ≤ p → st q = false := by
  induction p with
  | zero => exact ⟨0, Nat.le_refl _, h0, fun q h1 h2 => absurd h1 (by omega)⟩
  | succ p ih =>
    cases h : st (p + 1) with
    | true => exact ⟨p + 1, Nat.le_refl _, h, fun q h1 h2 => absurd h1 (by omega)⟩
    | false =>
      obtain ⟨s, h1, h2, h3⟩ := ih
      refine ⟨s, by omega, h2, fun q hq hq2 => ?_⟩
      by_cases e : q = p + 1
      · subst e; exact h
      · exact h3 q hq (by omega)

/-- The marked entries in the order in which `unique_mask` lists them. -/
def marked (x64 : Bool) (n k : Nat) (rows : List (List Nat)) (key : Option (List K)) (filled : Option (List Bool)) : List Nat :=
  compress (order x64 n k rows (effective filled key) key) (maskSorted x64 n k rows key filled)

theorem inverse_core {x64 : Bool} {n k : Nat} {rows : List (List Nat)} {key : Option (List K)}
    {filled : Option (List Bool)} (hrows : ∀ i, i < n → (rows.getD i []).length = k) (hc : NoCollision x64 n rows key filled)
    (hs : NoSentinel x64 n k rows key filled) {p i : Nat} (hi : i < n) (hv : effective filled key i = true)
    (hpi : (order x64 n k rows (effective filled key) key)[p]? = some i) :
    ∃ g a, (cumsum 0 ((maskSorted x64 n k rows key filled).map Bool.toNat)).getD p 0 = g + 1 ∧
      (marked x64 n k rows key filled)[g]? = some a ∧ a < n ∧ effective filled key a = true ∧ rows.getD a [] = rows.getD i [] := by
  have hp := order_perm x64 n k rows (effective filled key) key
  have hlex := order_lex x64 n k rows (effective filled key) key
  generalize hperm : order x64 n k rows (effective filled key) key = perm at *
  have hlen := perm_range_length hp
  have hpn : p < n := by have := (List.getElem?_eq_some_iff.1 hpi).1; omega
  have hles := hashLes_isOrder x64 k rows (effective filled key)
  generalize hst : groupStarts (sameAll (hashLes x64 k rows (effective filled key))) perm = st
  have hst0 : st.getD 0 false = true := by rw [← hst]; rfl
  obtain ⟨s, hsp, hs1, hs2⟩ := last_start (fun q => st.getD q false) hst0 p
  have hsn : s < n := by omega
  -- the group start has the same hashes
  have hsame : ∀ q, s ≤ q → q ≤ p →
      sameAll (hashLes x64 k rows (effective filled key)) (perm.getD s 0) (perm.getD q 0) = true := by
    intro q
    induction q with
    | zero =>
      intro h1 _
      have : s = 0 := by omega
      subst this
      rw [sameAll_iff]
      intro le hle
      have := (hles le hle).2 (perm.getD 0 0) (perm.getD 0 0)
      simp only [Bool.or_self] at this
      exact ⟨this, this⟩
    | succ q ih =>
      intro h1 h2
      by_cases e : s = q + 1
      · subst e
        rw [sameAll_iff]
        intro le hle
        have := (hles le hle).2 (perm.getD (q + 1) 0) (perm.getD (q + 1) 0)
        simp only [Bool.or_self] at this
        exact ⟨this, this⟩
      · have h3 := hs2 (q + 1) (by omega) h2
        change st.getD (q + 1) false = false at h3
        rw [← hst, groupStarts_succ _ _ _ (by omega)] at h3
        exact sameAll_trans hles (ih (by omega) (by omega)) (by simpa using h3)
  have hpi' : perm.getD p 0 = i := getD_of_getElem? hpi
  have hsp' : perm[s]? = some (perm.getD s 0) := getElem?_of_lt 0 (by omega)
  have han := perm_range_lt hp hsp'
  have hsi := hsame p hsp (Nat.le_refl _)
  rw [hpi'] at hsi
  have hva : effective filled key (perm.getD s 0) = true := by
    apply Classical.byContradiction
    intro hna
    have h1 := invalid_later hrows hs hi han hv hna hsi
    have h2 := (groupFirst_tie hles (fun a b => tie_asymm) hp hlex hsp').1 (by rw [hst]; exact hs1) i hi (sameAll_symm hsi)
    rcases h2 with e | h2
    · rw [← e] at hna; exact hna hv
    · exact tie_asymm h1 h2
  -- mask_sorted between s and p
  have hms : ∀ q, q < n → (maskSorted x64 n k rows key filled).getD q false = (st.getD q false && effective filled key (perm.getD q 0)) := by
    intro q hq
    unfold maskSorted
    simp only
    rw [tab_getD _ _ hq, hperm, hst]
  have hml : (maskSorted x64 n k rows key filled).length = n := by simp [maskSorted]
  have hmss : (maskSorted x64 n k rows key filled).getD s false = true := by
    rw [hms s hsn, hva]
    simpa using hs1
  have hcnt : ∀ q, s ≤ q → q ≤ p → cnt (maskSorted x64 n k rows key filled) (q + 1) = cnt (maskSorted x64 n k rows key filled) s + 1 := by
    intro q
    induction q with
    | zero =>
      intro h1 _
      have : s = 0 := by omega
      subst this
      rw [cnt_succ (by omega), hmss]; rfl
    | succ q ih =>
      intro h1 h2
      by_cases e : s = q + 1
      · subst e; rw [cnt_succ (by omega), hmss]; rfl
      · have h3 := hs2 (q + 1) (by omega) h2
        change st.getD (q + 1) false = false at h3
        rw [cnt_succ (by omega), ih (by omega) (by omega), hms _ (by omega), h3]; rfl
  refine ⟨cnt (maskSorted x64 n k rows key filled) s, perm.getD s 0, ?_, ?_, han, hva, ?_⟩
  · rw [cumsum_cnt (by omega), hcnt p hsp (Nat.le_refl _)]
  · unfold marked
    rw [hperm, compress_getElem? (by omega) hmss, hsp']
  · exact (same_row hrows hc han hi hva hv).1 hsi

/-- The index list: the marked entries, each once; with a static `size` cut or padded with `fill_value` (default 0) to that
length. -/
theorem unique_index_spec {x64 : Bool} {n k : Nat} {rows : List (List Nat)} {key : Option (List K)}
    {filled : Option (List Bool)} {size fill : Option Nat} (hn : 0 < n) (hk : 0 < k)
    (hkey : ∀ ks, key = some ks → ks.length = n) {r : Result} (hr : uniqueMask x64 n k rows key filled size fill = some r) :
    ∃ L : List Nat, L.Perm ((List.range n).filter fun i => r.mask.getD i false) ∧ L = marked x64 n k rows key filled ∧
      r.index = match size with
        | none => L
        | some sz => L.take sz ++ List.replicate (sz - L.length) (fill.getD 0) := by
  have hm := (mask_iff hk hkey hr).2
  rw [uniqueMask_eq hn hk hkey] at hr
  simp only [Option.some.injEq] at hr
  have hp := order_perm x64 n k rows (effective filled key) key
  have hlen := perm_range_length hp
  have hml : (maskSorted x64 n k rows key filled).length = n := by simp [maskSorted]
  have hL : marked x64 n k rows key filled = (order x64 n k rows (effective filled key) key).filter fun i => r.mask.getD i false := by
    apply compress_eq_filter (by omega)
    intro p i hpi
    have hin := perm_range_lt hp hpi
    have := (hm i hin).trans (maskSorted_pos hpi).symm
    exact Bool.eq_iff_iff.2 this.symm
  refine ⟨_, ?_, rfl, ?_⟩
  · rw [hL]; exact hp.filter _
  · subst hr
    cases size with
    | none => rfl
    | some sz =>
      show List.map _ (nonzero _ sz n) = _
      unfold nonzero
      simp only
      have hcm := compress_map_positions (order x64 n k rows (effective filled key) key) (maskSorted x64 n k rows key filled)
        (by omega) [fill.getD 0]
      have hcl : (compress (List.range (maskSorted x64 n k rows key filled).length) (maskSorted x64 n k rows key filled)).length =
          (marked x64 n k rows key filled).length := by
        unfold marked; rw [← hcm, List.length_map]
      rw [List.map_append, List.map_take, hcm, hcl, List.map_replicate]
      congr 2
      rw [List.getD_eq_getElem?_getD, List.getElem?_append_right (by omega), hlen]
      simp

/-- **C43** (partial: same hypotheses as `unique_mask_spec_partial`; and a static `size` must be at least the number of marked
entries).  For every valid entry `i`, `inverse[i]` is a valid position of `index`, and the item there equals item `i`. -/
theorem unique_inverse_partial {x64 : Bool} {n k : Nat} {rows : List (List Nat)} {key : Option (List K)}
    {filled : Option (List Bool)} {size fill : Option Nat} (hk : 0 < k)
    (hrows : ∀ i, i < n → (rows.getD i []).length = k)
    (hkey : ∀ ks, key = some ks → ks.length = n) (hc : NoCollision x64 n rows key filled)
    (hs : NoSentinel x64 n k rows key filled) {r : Result} (hr : uniqueMask x64 n k rows key filled size fill = some r)
    (hsz : ∀ sz, size = some sz → ((List.range n).filter fun i => r.mask.getD i false).length ≤ sz) :
    r.inverse.length = n ∧ ∀ i, i < n → Valid filled key i → ∃ g a : Nat, r.inverse[i]? = some (g : Int) ∧ r.index[g]? = some a ∧
      a < n ∧ r.mask.getD a false = true ∧ rows.getD a [] = rows.getD i [] := by
  rcases Nat.eq_zero_or_pos n with h0 | hn
  · subst h0
    simp only [uniqueMask, if_true] at hr
    cases hr
    exact ⟨rfl, fun i hi => absurd hi (by omega)⟩
  · obtain ⟨L, hL, hL', hidx⟩ := unique_index_spec hn hk hkey hr
    have hr' := hr
    rw [uniqueMask_eq hn hk hkey] at hr'
    simp only [Option.some.injEq] at hr'
    have hp := order_perm x64 n k rows (effective filled key) key
    refine ⟨by rw [← hr']; simp, fun i hi hv => ?_⟩
    obtain ⟨p, hpn, hpi⟩ := perm_range_pos hp hi
    obtain ⟨g, a, h1, h2, h3, h4, h5⟩ := inverse_core hrows hc hs hi (effective_iff.2 hv) hpi
    have hml : (maskSorted x64 n k rows key filled).length = n := by simp [maskSorted]
    have hgL : L[g]? = some a := by rw [hL']; exact h2
    refine ⟨g, a, ?_, ?_, h3, ?_, h5⟩
    · rw [← hr']
      simp only
      rw [scatter_perm hp 0 _ (by simp [hml]) hpi, List.getElem?_map, getElem?_of_lt 0 (by simp [hml]; omega), h1]
      simp
    · rw [hidx]
      cases size with
      | none => exact hgL
      | some sz =>
        have hgl : g < L.length := (List.getElem?_eq_some_iff.1 hgL).1
        have := hsz sz rfl
        rw [← hL.length_eq] at this
        simp only
        rw [List.getElem?_append_left (by rw [List.length_take]; omega), List.getElem?_take, if_pos (by omega)]
        exact hgL
    · have : a ∈ L := List.mem_of_getElem? hgL
      simpa using (List.mem_filter.1 (hL.mem_iff.1 this)).2

/-- Entries that are not valid get the number of the last group (−1 if there is none): `inverse` is meaningful for valid entries
only.  Here, three entries of which only the middle one is filled. -/
example : (uniqueMask (K := Option Nat) false 3 1 [[7], [5], [7]] none (some [false, true, false]) none none).map
    (fun r => (r.mask, r.index, r.inverse)) = some ([false, true, false], [1], [0, 0, 0]) := by decide +kernel

example : (uniqueMask (K := Option Nat) false 2 1 [[7], [5]] none (some [false, false]) none none).map
    (fun r => (r.mask, r.index, r.inverse)) = some ([false, false], [], [-1, -1]) := by decide +kernel

/-- Under `jit` (no static `size`) the results are those of the eager call, with the index list padded to the batch length by
`fill_value` (default: the batch length, an index no entry has). -/
theorem unique_jit_spec {x64 : Bool} {n k : Nat} {rows : List (List Nat)} {key : Option (List K)} {filled : Option (List Bool)}
    {fill : Option Nat} (hn : 0 < n) (hk : 0 < k) (hkey : ∀ ks, key = some ks → ks.length = n) :
    ∃ r r', uniqueMask x64 n k rows key filled none fill = some r ∧ uniqueMaskJit x64 n k rows key filled fill = some r' ∧
      r'.mask = r.mask ∧ r'.inverse = r.inverse ∧ r'.index = r.index ++ List.replicate (n - r.index.length) (fill.getD n) ∧
      r'.index.length = n := by
  have e1 := uniqueMask_eq (x64 := x64) (rows := rows) (filled := filled) (size := none) (fill := fill) hn hk hkey
  have e2 := uniqueMask_eq (x64 := x64) (rows := rows) (filled := filled) (size := some n) (fill := some (fill.getD n)) hn hk hkey
  refine ⟨_, _, e1, e2, rfl, rfl, ?_⟩
  obtain ⟨L, hL, h1, h2⟩ := unique_index_spec hn hk hkey e1
  obtain ⟨L', hL', h1', h2'⟩ := unique_index_spec hn hk hkey e2
  rw [h1] at h2 hL
  rw [h1'] at h2'
  have hle : (marked x64 n k rows key filled).length ≤ n := by
    rw [hL.length_eq]
    exact Nat.le_trans (List.length_filter_le _ _) (by simp)
  rw [h2, h2']
  simp only
  rw [List.take_of_length_le hle]
  refine ⟨by simp, ?_⟩
  simp
  omega

end Unique
