import Verif.UniqueInverse

/-!
# `unique_mask_legacy`, `xtructure/core/xtructure_numpy/dataclass_ops/unique_ops/legacy_unique_ops.py` (C70)

The comparison implementation of `unique_mask`: groups by `jnp.unique(axis=0)` and scatter-min.  `rows` are the results of
`key_fn` as in `UniqueModel`.
-/

namespace Unique

open Jax SortGroup Dedupe

variable {K : Type u} [KeyTop K]

/-! ## Model -/

/-- `_, index, inverse = jnp.unique(x, axis=0, size=n, return_index=True, return_inverse=True)` as JAX computes it, for `n` rows
compared column by column (`les`, first column most significant): stable lexsort, mask of the rows that differ from the previous
one, `perm[nonzero(mask, size=n)]` (padded with position 0), scattered `cumsum(mask) - 1`. -/
def jnpUnique (les : List (Nat → Nat → Bool)) (n : Nat) : List Nat × List Nat :=
  let perm := sortPasses les (List.range n)
  let mask := groupStarts (sameAll les) perm
  ((nonzero mask n 0).map fun q => perm.getD q 0, scatterSet (List.replicate n 0) perm (groupIds mask))

/-- The columns of `unique_keys` (legacy_unique_ops.py:49-53): the words of `key_fn`, then the `filled` flag if given. -/
def legacyLes (k : Nat) (rows : List (List Nat)) (filled : Option (List Bool)) : List (Nat → Nat → Bool) :=
  ((List.range k).map fun c => leBy fun i => (rows.getD i []).getD c 0) ++
    match filled with
    | none => []
    | some f => [leBy fun i => (f.getD i false).toNat]

/-- `masked_key` (legacy_unique_ops.py:70-74). -/
def legacyKey (filled : Option (List Bool)) (ks : List K) (i : Nat) : K :=
  match filled with
  | none => ks.getD i KeyPad.inf
  | some f => if f.getD i false then ks.getD i KeyPad.inf else KeyPad.inf

/-- `filled[i]`, `True` without `filled`. -/
def isFilled (filled : Option (List Bool)) (i : Nat) : Bool :=
  match filled with | none => true | some f => f.getD i false

/-- `winning_indices_per_group` (legacy_unique_ops.py:76-100). -/
def legacyWinners (n : Nat) (inv : List Nat) (ks : List K) (filled : Option (List Bool)) : List Nat :=
  let masked := tab n fun i => legacyKey filled ks i
  let minCosts := segMinK n inv masked                                                             -- 76-77
  let isMin := fun i => eqK (masked.getD i KeyPad.inf) (minCosts.getD (inv.getD i 0) KeyPad.inf)   -- 79-80
  let consider := tab n fun i => if isMin i && isFilled filled i then i else n                     -- 82-93
  segMin n n inv consider                                                                          -- 95-98

/-- `unique_mask_legacy(val, key, filled, return_index=True, return_inverse=True)` (legacy_unique_ops.py:14-118): mask, index,
inverse.  Simplifications: `key` and `filled` have the batch length (another length raises in `reshape` or
`_where_no_broadcast`, or broadcasts, which is not modelled), `key_fn` gives at least one word. -/
def uniqueMaskLegacy (n k : Nat) (rows : List (List Nat)) (key : Option (List K)) (filled : Option (List Bool)) :
    List Bool × List Nat × List Nat :=
  if n = 0 then ([], [], [])                                                                       -- 38-47
  else
    let u := jnpUnique (legacyLes k rows filled) n                                                 -- 55-61
    let inv := u.2
    match key with
    | none =>                                                                                      -- 65-68
      let mask := scatterSet (List.replicate n false) u.1 (List.replicate n true)
      (tab n fun i => mask.getD i false && isFilled filled i, u.1, inv)
    | some ks =>
      let win := legacyWinners n inv ks filled
      let mask := tab n fun i => i == win.getD (inv.getD i 0) 0 &&                                 -- 102-103
        (match filled with                                                                         -- 105-107
         | none => !KeyCmp.le KeyPad.inf (ks.getD i KeyPad.inf)
         | some _ => true)
      let groups := (jnpUnique [leBy fun i => inv.getD i 0] n).1.map fun i => inv.getD i 0         -- 110
      (mask, groups.map fun g => win.getD g 0, inv)                                                -- 111

/-! ## `jnp.unique` -/

theorem sortPasses_range_lex {les : List (Nat → Nat → Bool)} (h : ∀ le ∈ les, IsOrder le) (n : Nat) :
    (sortPasses les (List.range n)).Pairwise (Lex (· < ·) les) :=
  sortPasses_lex _ _ (range_pairwise_lt n) h

theorem jnpUnique_inv_length (les : List (Nat → Nat → Bool)) (n : Nat) : (jnpUnique les n).2.length = n := by
  simp [jnpUnique]

theorem groupIds_starts_length {same : Nat → Nat → Bool} {l : List Nat} {n : Nat} (hn : 0 < n) (hl : l.length = n) :
    (groupIds (groupStarts same l)).length = n := by
  simp [hl]; omega

theorem jnpUnique_inv_at {les : List (Nat → Nat → Bool)} {n : Nat} (hn : 0 < n) {p i : Nat}
    (hpi : (sortPasses les (List.range n))[p]? = some i) :
    (jnpUnique les n).2.getD i 0 = (groupIds (groupStarts (sameAll les) (sortPasses les (List.range n)))).getD p 0 := by
  have hp := sortPasses_perm les (List.range n)
  have := scatter_perm hp 0 (groupIds (groupStarts (sameAll les) (sortPasses les (List.range n))))
    (groupIds_starts_length hn (perm_range_length hp)) hpi
  rw [List.getD_eq_getElem?_getD, List.getD_eq_getElem?_getD]
  simp only [jnpUnique]
  rw [this]

/-- The inverse identifies exactly the equal rows. -/
theorem jnpUnique_inv_iff {les : List (Nat → Nat → Bool)} (h : ∀ le ∈ les, IsOrder le) {n i j : Nat} (hi : i < n) (hj : j < n) :
    (jnpUnique les n).2.getD i 0 = (jnpUnique les n).2.getD j 0 ↔ sameAll les i j = true := by
  have hp := sortPasses_perm les (List.range n)
  have hlen := perm_range_length hp
  obtain ⟨p, hpn, hpi⟩ := perm_range_pos hp hi
  obtain ⟨q, hqn, hqj⟩ := perm_range_pos hp hj
  rw [jnpUnique_inv_at (by omega) hpi, jnpUnique_inv_at (by omega) hqj,
    groupIds_eq_iff h (sortPasses_range_lex h n) (by omega) (by omega), getD_of_getElem? hpi, getD_of_getElem? hqj]

theorem jnpUnique_inv_lt {les : List (Nat → Nat → Bool)} {n i : Nat} (hi : i < n) : (jnpUnique les n).2.getD i 0 < n := by
  have hp := sortPasses_perm les (List.range n)
  have hlen := perm_range_length hp
  obtain ⟨p, hpn, hpi⟩ := perm_range_pos hp hi
  rw [jnpUnique_inv_at (by omega) hpi]
  have := groupIds_le (sameAll les) (sortPasses les (List.range n)) (q := p) (by omega)
  omega

/-- The inverse takes every value from 0 to its maximum. -/
theorem jnpUnique_inv_contig {les : List (Nat → Nat → Bool)} {n i v : Nat} (hi : i < n)
    (hv : v ≤ (jnpUnique les n).2.getD i 0) : ∃ j, j < n ∧ (jnpUnique les n).2.getD j 0 = v := by
  have hp := sortPasses_perm les (List.range n)
  have hlen := perm_range_length hp
  obtain ⟨p, hpn, hpi⟩ := perm_range_pos hp hi
  rw [jnpUnique_inv_at (by omega) hpi] at hv
  have key : ∀ p, p < n → v ≤ (groupIds (groupStarts (sameAll les) (sortPasses les (List.range n)))).getD p 0 →
      ∃ q, q < n ∧ (groupIds (groupStarts (sameAll les) (sortPasses les (List.range n)))).getD q 0 = v := by
    intro p
    induction p with
    | zero => intro hp h; rw [groupIds_zero] at h; exact ⟨0, hp, by rw [groupIds_zero]; omega⟩
    | succ p ih =>
      intro hp h
      by_cases h' : v ≤ (groupIds (groupStarts (sameAll les) (sortPasses les (List.range n)))).getD p 0
      · exact ih (by omega) h'
      · have hs := groupIds_succ (sameAll les) (sortPasses les (List.range n)) p (by omega)
        have : (!sameAll les ((sortPasses les (List.range n)).getD p 0) ((sortPasses les (List.range n)).getD (p + 1) 0)).toNat ≤ 1 :=
          Bool.toNat_le _
        exact ⟨p + 1, hp, by omega⟩
  obtain ⟨q, hq, e⟩ := key p hpn hv
  have hql := getElem?_of_lt (l := sortPasses les (List.range n)) (i := q) 0 (by omega)
  exact ⟨_, perm_range_lt hp hql, by rw [jnpUnique_inv_at (by omega) hql, e]⟩

theorem groupIds_cnt {same : Nat → Nat → Bool} {l : List Nat} {s : Nat} (hs : s < l.length)
    (hst : (groupStarts same l).getD s false = true) :
    (groupIds (groupStarts same l)).getD s 0 = cnt (groupStarts same l) s := by
  unfold groupIds
  have hl : s < (groupStarts same l).length := by simp; omega
  rw [map_sub_getD, cumsum_cnt hl, cnt_succ hl, hst]
  simp

theorem compress_length_le {α : Type} (xs : List α) (m : List Bool) : (compress xs m).length ≤ xs.length := by
  unfold compress
  rw [List.length_map]
  refine Nat.le_trans (List.length_filter_le _ _) ?_
  simp; omega

/-- Positions listed by `nonzero`, with padding 0. -/
theorem nonzero_mem {m : List Bool} {n q : Nat} (h : q ∈ nonzero m n 0) : q = 0 ∨ m.getD q false = true := by
  unfold nonzero at h
  rcases List.mem_append.1 h with h | h
  · right
    have h := List.mem_of_mem_take h
    unfold compress at h
    rw [List.mem_map] at h
    obtain ⟨x, hx, rfl⟩ := h
    rw [List.mem_filter, mem_zip_iff 0 false (by simp)] at hx
    obtain ⟨⟨p, hp, rfl⟩, h2⟩ := hx
    have hp' : p < m.length := by simpa using hp
    simp only at h2 ⊢
    have e : (List.range m.length).getD p 0 = p := by
      rw [List.getD_eq_getElem?_getD, List.getElem?_range hp']; rfl
    rw [e]
    exact h2
  · left; exact (List.mem_replicate.1 h).2

theorem nonzero_at {m : List Bool} {n s : Nat} (hm : m.length ≤ n) (hs : s < m.length) (h : m.getD s false = true) :
    (nonzero m n 0)[cnt m s]? = some s := by
  have h1 := compress_getElem? (xs := List.range m.length) (m := m) (by simp) h
  rw [List.getElem?_range hs] at h1
  have hl := (List.getElem?_eq_some_iff.1 h1).1
  have hle := compress_length_le (List.range m.length) m
  rw [List.length_range] at hle
  unfold nonzero
  simp only
  rw [List.take_of_length_le (by omega), List.getElem?_append_left hl, h1]

theorem nonzero_length {m : List Bool} {n : Nat} (hm : m.length ≤ n) : (nonzero m n 0).length = n := by
  have hle := compress_length_le (List.range m.length) m
  rw [List.length_range] at hle
  simp [nonzero]
  omega

/-- Every entry of the index is the first of its group. -/
theorem jnpUnique_index_first {les : List (Nat → Nat → Bool)} (h : ∀ le ∈ les, IsOrder le) {n a : Nat} (hn : 0 < n)
    (ha : a ∈ (jnpUnique les n).1) : a < n ∧ ∀ j, j < n → sameAll les j a = true → a ≤ j := by
  have hp := sortPasses_perm les (List.range n)
  have hlen := perm_range_length hp
  simp only [jnpUnique, List.mem_map] at ha
  obtain ⟨q, hq, rfl⟩ := ha
  have hst : (groupStarts (sameAll les) (sortPasses les (List.range n))).getD q false = true := by
    rcases nonzero_mem hq with e | e
    · subst e; rfl
    · exact e
  have hqn : q < n := by
    have : q < (groupStarts (sameAll les) (sortPasses les (List.range n))).length := by
      rcases Nat.lt_or_ge q (groupStarts (sameAll les) (sortPasses les (List.range n))).length with h' | h'
      · exact h'
      · rw [List.getD_eq_getElem?_getD, List.getElem?_eq_none h'] at hst; cases hst
    simp at this; omega
  have hql := getElem?_of_lt (l := sortPasses les (List.range n)) (i := q) 0 (by omega)
  refine ⟨perm_range_lt hp hql, fun j hj hs => ?_⟩
  rcases (groupFirst_tie h (R := (· < ·)) (fun a b h1 h2 => by omega) hp (sortPasses_range_lex h n) hql).1 hst j hj hs with e | e
  · omega
  · omega

/-- `index[inverse[i]]` is a row equal to row `i`. -/
theorem jnpUnique_index_inv {les : List (Nat → Nat → Bool)} (h : ∀ le ∈ les, IsOrder le) {n i : Nat} (hi : i < n) :
    ∃ a, (jnpUnique les n).1[(jnpUnique les n).2.getD i 0]? = some a ∧ a < n ∧ sameAll les a i = true := by
  have hp := sortPasses_perm les (List.range n)
  have hlen := perm_range_length hp
  obtain ⟨p, hpn, hpi⟩ := perm_range_pos hp hi
  rw [jnpUnique_inv_at (by omega) hpi]
  obtain ⟨s, hsp, hs1, hs2⟩ := last_start
    (fun q => (groupStarts (sameAll les) (sortPasses les (List.range n))).getD q false) rfl p
  have hgid : ∀ q, s ≤ q → q ≤ p → (groupIds (groupStarts (sameAll les) (sortPasses les (List.range n)))).getD q 0 =
      (groupIds (groupStarts (sameAll les) (sortPasses les (List.range n)))).getD s 0 := by
    intro q
    induction q with
    | zero => intro h1 _; have : s = 0 := by omega
              subst this; rfl
    | succ q ih =>
      intro h1 h2
      by_cases e : s = q + 1
      · subst e; rfl
      · have hst := hs2 (q + 1) (by omega) h2
        rw [groupStarts_succ _ _ _ (by omega)] at hst
        rw [groupIds_succ _ _ _ (by omega), hst, ih (by omega) (by omega)]
        rfl
  have hs : s < (sortPasses les (List.range n)).length := by omega
  have hsl := getElem?_of_lt (l := sortPasses les (List.range n)) (i := s) 0 hs
  refine ⟨(sortPasses les (List.range n)).getD s 0, ?_, perm_range_lt hp hsl, ?_⟩
  · rw [hgid p hsp (Nat.le_refl _), groupIds_cnt hs hs1]
    simp only [jnpUnique]
    rw [List.getElem?_map, nonzero_at (by simp; omega) (by simp; omega) hs1]
    rfl
  · have := (groupIds_eq_iff h (sortPasses_range_lex h n) hs (by omega : p < _)).1 (hgid p hsp (Nat.le_refl _)).symm
    rwa [getD_of_getElem? hpi] at this

theorem jnpUnique_index_length {les : List (Nat → Nat → Bool)} {n : Nat} (hn : 0 < n) : (jnpUnique les n).1.length = n := by
  have hp := sortPasses_perm les (List.range n)
  have hlen := perm_range_length hp
  simp only [jnpUnique, List.length_map]
  exact nonzero_length (by simp; omega)

/-- `jnp.unique` of an array of contiguous group ids numbers the groups as the ids do. -/
theorem jnpUnique_ids {f : Nat → Nat} {n : Nat} (hc : ∀ i v, i < n → v ≤ f i → ∃ j, j < n ∧ f j = v) {i : Nat} (hi : i < n) :
    (jnpUnique [leBy f] n).2.getD i 0 = f i := by
  have h : ∀ le ∈ [leBy f], IsOrder le := fun le hle => by
    rw [List.mem_singleton] at hle; subst hle; exact leBy_isOrder _
  have hp := sortPasses_perm [leBy f] (List.range n)
  have hlen := perm_range_length hp
  have hpw := sortPasses_range_lex h n
  generalize hperm : sortPasses [leBy f] (List.range n) = perm at *
  have mono : ∀ p q, p < q → q < n → f (perm.getD p 0) ≤ f (perm.getD q 0) := by
    intro p q h1 h2
    have := pairwise_getD hpw h1 (by omega)
    simpa [Lex, Refine, leBy] using this.1
  have same : ∀ a b, sameAll [leBy f] a b = true ↔ f a = f b := by
    intro a b
    rw [sameAll_iff]
    simp only [List.mem_singleton, forall_eq]
    exact leBy_same
  have key : ∀ p, p < n → (groupIds (groupStarts (sameAll [leBy f]) perm)).getD p 0 = f (perm.getD p 0) := by
    intro p
    induction p with
    | zero =>
      intro h0
      rw [groupIds_zero]
      have hl := getElem?_of_lt (l := perm) (i := 0) 0 (by omega)
      obtain ⟨j, hj, hfj⟩ := hc _ 0 (perm_range_lt hp hl) (Nat.zero_le _)
      obtain ⟨q, hq, hqj⟩ := perm_range_pos hp hj
      have hqd : perm.getD q 0 = j := getD_of_getElem? hqj
      rcases Nat.eq_zero_or_pos q with e | e
      · subst e; rw [hqd, hfj]
      · have := mono 0 q e hq; rw [hqd, hfj] at this; omega
    | succ p ih =>
      intro hp1
      have ih := ih (by omega)
      rw [groupIds_succ _ _ _ (by omega), ih]
      have hm := mono p (p + 1) (by omega) hp1
      cases hs : sameAll [leBy f] (perm.getD p 0) (perm.getD (p + 1) 0) with
      | true => rw [(same _ _).1 hs]; rfl
      | false =>
        have hne : f (perm.getD p 0) ≠ f (perm.getD (p + 1) 0) := fun e => by
          rw [(same _ _).2 e] at hs; cases hs
        have hl := getElem?_of_lt (l := perm) (i := p + 1) 0 (by omega)
        obtain ⟨j, hj, hfj⟩ := hc _ (f (perm.getD p 0) + 1) (perm_range_lt hp hl) (by omega)
        obtain ⟨q, hq, hqj⟩ := perm_range_pos hp hj
        have hqd : perm.getD q 0 = j := getD_of_getElem? hqj
        rcases Nat.lt_trichotomy q p with hlt | e | hgt
        · have := mono q p hlt (by omega); rw [hqd, hfj] at this; omega
        · subst e; rw [hqd] at hfj; omega
        · rcases Nat.lt_trichotomy q (p + 1) with hlt | e | hgt
          · omega
          · subst e; rw [hqd, hfj]; rfl
          · have := mono (p + 1) q hgt hq
            rw [hqd, hfj] at this
            show f (perm.getD p 0) + 1 = _
            omega
  obtain ⟨p, hpn, hpi⟩ := perm_range_pos hp hi
  rw [jnpUnique_inv_at (by omega) (by rw [hperm]; exact hpi), hperm, key p hpn, getD_of_getElem? hpi]

/-! ## Groups of `unique_mask_legacy` -/

theorem legacyLes_isOrder (k : Nat) (rows : List (List Nat)) (filled : Option (List Bool)) :
    ∀ le ∈ legacyLes k rows filled, IsOrder le := by
  intro le hle
  simp only [legacyLes, List.mem_append, List.mem_map] at hle
  rcases hle with ⟨c, _, rfl⟩ | hle
  · exact leBy_isOrder _
  · cases filled with
    | none => cases hle
    | some f => rw [List.mem_singleton] at hle; subst hle; exact leBy_isOrder _

theorem legacy_same_iff {n k : Nat} {rows : List (List Nat)} (hrows : ∀ i, i < n → (rows.getD i []).length = k)
    {filled : Option (List Bool)} {i j : Nat} (hi : i < n) (hj : j < n) :
    sameAll (legacyLes k rows filled) i j = true ↔
      rows.getD i [] = rows.getD j [] ∧ isFilled filled i = isFilled filled j := by
  have hrow : (∀ le ∈ (List.range k).map fun c => leBy fun i => (rows.getD i []).getD c 0, le i j = true ∧ le j i = true) ↔
      rows.getD i [] = rows.getD j [] := by
    constructor
    · intro h
      apply List.ext_getElem?
      intro c
      by_cases hc : c < k
      · have := leBy_same.1 (h _ (List.mem_map.2 ⟨c, List.mem_range.2 hc, rfl⟩))
        rw [getElem?_of_lt 0 (by rw [hrows i hi]; exact hc), getElem?_of_lt 0 (by rw [hrows j hj]; exact hc), this]
      · rw [List.getElem?_eq_none (by rw [hrows i hi]; omega), List.getElem?_eq_none (by rw [hrows j hj]; omega)]
    · intro h le hle
      obtain ⟨c, _, rfl⟩ := List.mem_map.1 hle
      exact leBy_same.2 (by simp only [h])
  rw [sameAll_iff, ← hrow]
  cases filled with
  | none => simp [legacyLes, isFilled]
  | some f =>
    simp only [legacyLes, List.mem_append, List.mem_singleton, isFilled]
    constructor
    · intro h
      refine ⟨fun le hle => h le (Or.inl hle), ?_⟩
      have := leBy_same.1 (h _ (Or.inr rfl))
      cases h1 : f.getD i false <;> cases h2 : f.getD j false <;> rw [h1, h2] at this <;> first | rfl | cases this
    · rintro ⟨h1, h2⟩ le (hle | rfl)
      · exact h1 le hle
      · exact leBy_same.2 (by simp only [h2])

theorem legacy_inv_iff {n k : Nat} {rows : List (List Nat)} (hrows : ∀ i, i < n → (rows.getD i []).length = k)
    {filled : Option (List Bool)} {i j : Nat} (hi : i < n) (hj : j < n) :
    (jnpUnique (legacyLes k rows filled) n).2.getD i 0 = (jnpUnique (legacyLes k rows filled) n).2.getD j 0 ↔
      rows.getD i [] = rows.getD j [] ∧ isFilled filled i = isFilled filled j := by
  rw [jnpUnique_inv_iff (legacyLes_isOrder _ _ _) hi hj, legacy_same_iff hrows hi hj]

theorem scatter_true (xs : List Bool) (idx : List Nat) (m : Nat) (hm : idx.length ≤ m) {i : Nat} (hi : i < xs.length) :
    (scatterSet xs idx (List.replicate m true)).getD i false = true ↔ xs.getD i false = true ∨ i ∈ idx := by
  unfold scatterSet
  induction idx generalizing xs m with
  | nil => simp
  | cons a idx ih =>
    cases m with
    | zero => simp at hm
    | succ m =>
      rw [List.replicate_succ, List.zip_cons_cons, List.foldl_cons,
        ih (xs.set a true) m (by simpa using hm) (by simpa using hi)]
      simp only [List.mem_cons]
      by_cases e : a = i
      · subst e
        have : (xs.set a true).getD a false = true := by
          rw [List.getD_eq_getElem?_getD, List.getElem?_set_self hi]; rfl
        exact ⟨fun _ => Or.inr (Or.inl rfl), fun _ => Or.inl this⟩
      · have : (xs.set a true).getD i false = xs.getD i false := by
          rw [List.getD_eq_getElem?_getD, List.getD_eq_getElem?_getD, List.getElem?_set_ne e]
        rw [this]
        constructor
        · rintro (h | h)
          · exact Or.inl h
          · exact Or.inr (Or.inr h)
        · rintro (h | h | h)
          · exact Or.inl h
          · exact absurd h.symm e
          · exact Or.inr h

/-! ## The winner of each group -/

/-- Entry `j` is filled and no filled entry with an equal item has a smaller key. -/
def LeastKey (n : Nat) (rows : List (List Nat)) (ks : List K) (filled : Option (List Bool)) (j : Nat) : Prop :=
  isFilled filled j = true ∧ ∀ l, l < n → isFilled filled l = true → rows.getD l [] = rows.getD j [] →
    KeyCmp.le (ks.getD j KeyPad.inf) (ks.getD l KeyPad.inf) = true

theorem legacyKey_filled {filled : Option (List Bool)} (ks : List K) {i : Nat} (h : isFilled filled i = true) :
    legacyKey filled ks i = ks.getD i KeyPad.inf := by
  cases filled with
  | none => rfl
  | some f => simp only [legacyKey, isFilled] at *; rw [if_pos h]

/-- The winner of the group of `i`: the earliest entry of least key, or `n` if the group is not filled. -/
theorem legacyWinners_spec {n k : Nat} {rows : List (List Nat)} (hrows : ∀ i, i < n → (rows.getD i []).length = k)
    (ks : List K) (filled : Option (List Bool)) {i : Nat} (hi : i < n) :
    let inv := (jnpUnique (legacyLes k rows filled) n).2
    let w := (legacyWinners n inv ks filled).getD (inv.getD i 0) 0
    (isFilled filled i = false → w = n) ∧
    (isFilled filled i = true → w < n ∧ rows.getD w [] = rows.getD i [] ∧ LeastKey n rows ks filled w ∧
      ∀ j, j < n → rows.getD j [] = rows.getD i [] → LeastKey n rows ks filled j → w ≤ j) := by
  intro inv w
  have hinvl : inv.length = n := jnpUnique_inv_length _ _
  have hg : inv.getD i 0 < n := jnpUnique_inv_lt hi
  have hiff : ∀ a b, a < n → b < n → (inv.getD a 0 = inv.getD b 0 ↔
      rows.getD a [] = rows.getD b [] ∧ isFilled filled a = isFilled filled b) := fun a b ha hb => legacy_inv_iff hrows ha hb
  have hmk : ∀ j, j < n → (tab n fun i => legacyKey filled ks i).getD j KeyPad.inf = legacyKey filled ks j :=
    fun j hj => tab_getD _ _ hj
  -- the least key of a group
  have hmin : ∀ j, j < n → (eqK (legacyKey filled ks j)
      ((segMinK n inv (tab n fun i => legacyKey filled ks i)).getD (inv.getD j 0) KeyPad.inf) = true ↔
      ∀ l, l < n → inv.getD l 0 = inv.getD j 0 → KeyCmp.le (legacyKey filled ks j) (legacyKey filled ks l) = true) := by
    intro j hj
    obtain ⟨h1, h2⟩ := segMinK_spec (n := n) (gids := inv) (vals := tab n fun i => legacyKey filled ks i)
      (by simp [hinvl]) (g := inv.getD j 0) (jnpUnique_inv_lt hj)
    generalize (segMinK n inv (tab n fun i => legacyKey filled ks i)).getD (inv.getD j 0) KeyPad.inf = r at *
    unfold eqK
    rw [Bool.and_eq_true]
    constructor
    · rintro ⟨ha, _⟩ l hl hlj
      have := h1 l (by omega) hlj
      rw [hmk l hl] at this
      exact KeyLE.trans _ _ _ ha this
    · intro h
      refine ⟨?_, by have := h1 j (by omega) rfl; rwa [hmk j hj] at this⟩
      rcases h2 with e | ⟨l, hl, hlj, e⟩
      · rw [e]; exact KeyTop.le_inf _
      · rw [e, hmk l (by omega)]; exact h l (by omega) hlj
  have hcons : ∀ j, j < n → ((tab n fun i => if eqK ((tab n fun i => legacyKey filled ks i).getD i KeyPad.inf)
      ((segMinK n inv (tab n fun i => legacyKey filled ks i)).getD (inv.getD i 0) KeyPad.inf) && isFilled filled i then i else n).getD j 0
      = j ∧ LeastKey n rows ks filled j) ∨ ((tab n fun i => if eqK ((tab n fun i => legacyKey filled ks i).getD i KeyPad.inf)
      ((segMinK n inv (tab n fun i => legacyKey filled ks i)).getD (inv.getD i 0) KeyPad.inf) && isFilled filled i then i else n).getD j 0
      = n ∧ ¬ LeastKey n rows ks filled j) := by
    intro j hj
    rw [tab_getD _ _ hj, hmk j hj]
    have hl : (eqK (legacyKey filled ks j)
        ((segMinK n inv (tab n fun i => legacyKey filled ks i)).getD (inv.getD j 0) KeyPad.inf) && isFilled filled j) = true ↔
        LeastKey n rows ks filled j := by
      rw [Bool.and_eq_true, hmin j hj, and_comm]
      refine and_congr_right fun hf => ?_
      constructor
      · intro h l hl hfl hr
        have := h l hl ((hiff l j hl hj).2 ⟨hr, by rw [hfl, hf]⟩)
        rwa [legacyKey_filled ks hf, legacyKey_filled ks hfl] at this
      · intro h l hl hlj
        obtain ⟨hr, hfe⟩ := (hiff l j hl hj).1 hlj
        have hfl : isFilled filled l = true := hfe.trans hf
        rw [legacyKey_filled ks hf, legacyKey_filled ks hfl]
        exact h l hl hfl hr
    by_cases hc : LeastKey n rows ks filled j
    · left; rw [if_pos (hl.2 hc)]; exact ⟨rfl, hc⟩
    · right; rw [if_neg (fun h => hc (hl.1 h))]; exact ⟨rfl, hc⟩
  obtain ⟨h1, h2, h3⟩ := segMin_spec (n := n) (init := n) (gids := inv)
    (vals := tab n fun i => if eqK ((tab n fun i => legacyKey filled ks i).getD i KeyPad.inf)
      ((segMinK n inv (tab n fun i => legacyKey filled ks i)).getD (inv.getD i 0) KeyPad.inf) && isFilled filled i then i else n)
    (by simp [hinvl]) hg
  have hw : w = (segMin n n inv (tab n fun i => if eqK ((tab n fun i => legacyKey filled ks i).getD i KeyPad.inf)
      ((segMinK n inv (tab n fun i => legacyKey filled ks i)).getD (inv.getD i 0) KeyPad.inf) && isFilled filled i then i else n)).getD
      (inv.getD i 0) 0 := rfl
  rw [← hw] at h1 h2 h3
  rw [hinvl] at h2 h3
  constructor
  · intro hf
    rcases h3 with e | ⟨p, hp, hpg, e⟩
    · exact e
    · rcases hcons p hp with ⟨_, hc⟩ | ⟨e', _⟩
      · have := ((hiff p i hp hi).1 hpg).2
        rw [hf, hc.1] at this; cases this
      · rw [e, e']
  · intro hf
    -- some entry of the group has the least key
    have hex : ∃ j, j < n ∧ rows.getD j [] = rows.getD i [] ∧ LeastKey n rows ks filled j := by
      have step : ∀ m, ∃ a, a < n ∧ isFilled filled a = true ∧ rows.getD a [] = rows.getD i [] ∧
          ∀ j, j < m → j < n → isFilled filled j = true → rows.getD j [] = rows.getD i [] →
            KeyCmp.le (ks.getD a KeyPad.inf) (ks.getD j KeyPad.inf) = true := by
        intro m
        induction m with
        | zero => exact ⟨i, hi, hf, rfl, fun j hj => absurd hj (by omega)⟩
        | succ m ih =>
          obtain ⟨a, ha, hfa, hra, hall⟩ := ih
          by_cases hm : m < n ∧ isFilled filled m = true ∧ rows.getD m [] = rows.getD i [] ∧
              KeyCmp.le (ks.getD a KeyPad.inf) (ks.getD m KeyPad.inf) = false
          · obtain ⟨hm1, hm2, hm3, hm4⟩ := hm
            refine ⟨m, hm1, hm2, hm3, fun j hj hjn hfj hrj => ?_⟩
            by_cases e : j = m
            · subst e; exact KeyLE.refl _
            · exact KeyLE.trans _ _ _ (KeyLE.le_of_not_le hm4) (hall j (by omega) hjn hfj hrj)
          · refine ⟨a, ha, hfa, hra, fun j hj hjn hfj hrj => ?_⟩
            by_cases e : j = m
            · subst e
              cases hk : KeyCmp.le (ks.getD a KeyPad.inf) (ks.getD j KeyPad.inf) with
              | true => rfl
              | false => exact absurd ⟨hjn, hfj, hrj, hk⟩ hm
            · exact hall j (by omega) hjn hfj hrj
      obtain ⟨a, ha, hfa, hra, hall⟩ := step n
      exact ⟨a, ha, hra, hfa, fun l hl hfl hrl => hall l hl hl hfl (hrl.trans hra)⟩
    have hle : ∀ j, j < n → rows.getD j [] = rows.getD i [] → LeastKey n rows ks filled j → w ≤ j := by
      intro j hj hr hc
      have := h2 j hj ((hiff j i hj hi).2 ⟨hr, by rw [hf, hc.1]⟩)
      rcases hcons j hj with ⟨e, _⟩ | ⟨_, hn⟩
      · rwa [e] at this
      · exact absurd hc hn
    obtain ⟨j, hj, hrj, hcj⟩ := hex
    have hwn : w < n := Nat.lt_of_le_of_lt (hle j hj hrj hcj) hj
    rcases h3 with e | ⟨p, hp, hpg, e⟩
    · omega
    · rcases hcons p hp with ⟨e', hc⟩ | ⟨e', _⟩
      · have hwp : w = p := e.trans e'
        rw [hwp]
        exact ⟨hp, ((hiff p i hp hi).1 hpg).1, hc, hwp ▸ hle⟩
      · omega

/-- Least key and earliest = preferred to every filled entry with an equal item. -/
theorem least_iff_preferred {n : Nat} {rows : List (List Nat)} {ks : List K} {filled : Option (List Bool)} {i : Nat}
    (hf : isFilled filled i = true) (hi : i < n) :
    (LeastKey n rows ks filled i ∧ ∀ j, j < n → rows.getD j [] = rows.getD i [] → LeastKey n rows ks filled j → i ≤ j) ↔
      ∀ j, j < n → isFilled filled j = true → rows.getD j [] = rows.getD i [] → Preferred (some ks) i j := by
  constructor
  · rintro ⟨h1, h2⟩ j hj hfj hr
    refine ⟨h1.2 j hj hfj hr, fun hk => h2 j hj hr ⟨hfj, fun l hl hfl hrl => ?_⟩⟩
    exact KeyLE.trans _ _ _ hk (h1.2 l hl hfl (hrl.trans hr))
  · intro h
    refine ⟨⟨hf, fun l hl hfl hrl => (h l hl hfl hrl).1⟩, fun j hj hr hc => (h j hj hc.1 hr).2 (hc.2 i hi hf hr.symm)⟩

/-! ## Theorems -/

/-- **C70**, exact form: with no hypothesis on the items, entry `i` is marked iff it is filled, it is preferred (smallest key, then
earliest) to every filled entry with an equal item, and — only if no `filled` is given — its key is below `+inf`.  Nothing is hashed:
no collision can merge distinct items. -/
theorem legacy_mask_iff {n k : Nat} {rows : List (List Nat)} (hrows : ∀ i, i < n → (rows.getD i []).length = k)
    (key : Option (List K)) (filled : Option (List Bool)) :
    (uniqueMaskLegacy n k rows key filled).1.length = n ∧
    ∀ i, i < n → ((uniqueMaskLegacy n k rows key filled).1.getD i false = true ↔
      (∀ f, filled = some f → f.getD i false = true) ∧
      (filled = none → ∀ ks, key = some ks → KeyCmp.le KeyPad.inf (ks.getD i KeyPad.inf) = false) ∧
      ∀ j, j < n → (∀ f, filled = some f → f.getD j false = true) → rows.getD j [] = rows.getD i [] → Preferred key i j) := by
  rcases Nat.eq_zero_or_pos n with h0 | hn
  · subst h0
    exact ⟨by simp [uniqueMaskLegacy], fun i hi => absurd hi (by omega)⟩
  have hfil : ∀ j, (∀ f, filled = some f → f.getD j false = true) ↔ isFilled filled j = true := by
    intro j; cases filled <;> simp [isFilled]
  unfold uniqueMaskLegacy
  rw [if_neg (by omega)]
  cases key with
  | none =>
    refine ⟨by simp, fun i hi => ?_⟩
    simp only
    rw [tab_getD _ _ hi, Bool.and_eq_true, scatter_true _ _ _ (Nat.le_of_eq (jnpUnique_index_length hn)) (by simpa using hi)]
    have hno : (List.replicate n false).getD i false = false := by
      rw [List.getD_eq_getElem?_getD, List.getElem?_replicate]; split <;> rfl
    rw [hno]
    simp only [Bool.false_eq_true, false_or, hfil]
    have hmem : isFilled filled i = true → (i ∈ (jnpUnique (legacyLes k rows filled) n).1 ↔
        ∀ j, j < n → isFilled filled j = true → rows.getD j [] = rows.getD i [] → i ≤ j) := by
      intro hf
      constructor
      · intro h j hj hfj hr
        exact (jnpUnique_index_first (legacyLes_isOrder _ _ _) hn h).2 j hj
          ((legacy_same_iff hrows hj hi).2 ⟨hr, by rw [hfj, hf]⟩)
      · intro h
        obtain ⟨a, ha, han, hs⟩ := jnpUnique_index_inv (legacyLes_isOrder k rows filled) hi
        have hmem := List.mem_of_getElem? ha
        obtain ⟨hr, hfe⟩ := (legacy_same_iff hrows han hi).1 hs
        have h1 := h a han (hfe.trans hf) hr
        have h2 := (jnpUnique_index_first (legacyLes_isOrder _ _ _) hn hmem).2 i hi (sameAll_symm hs)
        have : i = a := by omega
        rw [this]; exact hmem
    constructor
    · rintro ⟨h1, h2⟩
      exact ⟨h2, fun _ ks hk => (by cases hk), (hmem h2).1 h1⟩
    · rintro ⟨h1, _, h3⟩
      exact ⟨(hmem h1).2 h3, h1⟩
  | some ks =>
    refine ⟨by simp, fun i hi => ?_⟩
    simp only
    rw [tab_getD _ _ hi, Bool.and_eq_true, beq_iff_eq]
    obtain ⟨hw1, hw2⟩ := legacyWinners_spec hrows ks filled hi
    generalize (legacyWinners n (jnpUnique (legacyLes k rows filled) n).2 ks filled).getD
      ((jnpUnique (legacyLes k rows filled) n).2.getD i 0) 0 = w at *
    simp only [hfil]
    have hwin : i = w ↔ isFilled filled i = true ∧
        ∀ j, j < n → isFilled filled j = true → rows.getD j [] = rows.getD i [] → Preferred (some ks) i j := by
      cases hf : isFilled filled i with
      | false => have := hw1 hf; simp; omega
      | true =>
        obtain ⟨a1, a2, a3, a4⟩ := hw2 hf
        rw [← least_iff_preferred hf hi]
        constructor
        · intro e; rw [← e] at a3; exact ⟨rfl, a3, fun j hj hr hc => e ▸ a4 j hj hr hc⟩
        · rintro ⟨_, h1, h2⟩
          have := a4 i hi rfl h1
          have := h2 w a1 a2 a3
          omega
    rw [hwin]
    cases filled with
    | none =>
      constructor
      · rintro ⟨⟨h1, h2⟩, h3⟩
        refine ⟨h1, fun _ ks' hk => ?_, h2⟩
        cases hk; simpa using h3
      · rintro ⟨h1, h2, h3⟩
        exact ⟨⟨h1, h3⟩, by simpa using h2 rfl ks rfl⟩
    | some f =>
      constructor
      · rintro ⟨⟨h1, h2⟩, _⟩
        exact ⟨h1, fun h => (by cases h), h2⟩
      · rintro ⟨h1, _, h3⟩
        exact ⟨⟨h1, h3⟩, rfl⟩

/-- **C70**: if the keys of filled entries are below `+inf` whenever both `key` and `filled` are given, `unique_mask_legacy` marks
exactly the representatives — the specification `unique_mask` is held to (C42) — for items of any number of words. -/
theorem legacy_mask_spec_partial {n k : Nat} {rows : List (List Nat)} (hrows : ∀ i, i < n → (rows.getD i []).length = k)
    (key : Option (List K)) (filled : Option (List Bool))
    (hfin : ∀ f ks, filled = some f → key = some ks → ∀ i, i < n → f.getD i false = true →
      KeyCmp.le KeyPad.inf (ks.getD i KeyPad.inf) = false) :
    (uniqueMaskLegacy n k rows key filled).1.length = n ∧
    ∀ i, i < n → ((uniqueMaskLegacy n k rows key filled).1.getD i false = true ↔ IsRep n rows filled key i) := by
  obtain ⟨h1, h2⟩ := legacy_mask_iff hrows key filled
  refine ⟨h1, fun i hi => ?_⟩
  rw [h2 i hi]
  unfold IsRep Valid
  constructor
  · rintro ⟨a, b, c⟩
    refine ⟨⟨a, fun ks hk => ?_⟩, fun j hj hv hr => c j hj hv.1 hr⟩
    cases hfil : filled with
    | none => exact b hfil ks hk
    | some f => exact hfin f ks hfil hk i hi (a f hfil)
  · rintro ⟨⟨a, b⟩, c⟩
    refine ⟨a, fun _ => b, fun j hj hfj hr => ?_⟩
    by_cases hv : ∀ ks, key = some ks → KeyCmp.le KeyPad.inf (ks.getD j KeyPad.inf) = false
    · exact c j hj ⟨hfj, hv⟩ hr
    · cases key with
      | none => exact absurd (fun ks h => by cases h) hv
      | some ks =>
        have hinf : KeyCmp.le KeyPad.inf (ks.getD j KeyPad.inf) = true := by
          cases h : KeyCmp.le KeyPad.inf (ks.getD j KeyPad.inf) with
          | true => rfl
          | false => exact absurd (fun ks' h' => by cases h'; exact h) hv
        refine ⟨KeyLE.trans _ _ _ (KeyTop.le_inf _) hinf, fun h => ?_⟩
        have := KeyLE.trans _ _ _ hinf h
        rw [b ks rfl] at this; cases this

/-- The two implementations agree where both are exact: on items whose hashes do not collide (in particular items of at most 4
words). -/
theorem legacy_agrees_partial {x64 : Bool} {n k : Nat} {rows : List (List Nat)} {key : Option (List K)}
    {filled : Option (List Bool)} (size fill : Option Nat) (hk : 0 < k) (hrows : ∀ i, i < n → (rows.getD i []).length = k)
    (hkey : ∀ ks, key = some ks → ks.length = n) (hc : NoCollision x64 n rows key filled)
    (hs : NoSentinel x64 n k rows key filled)
    (hfin : ∀ f ks, filled = some f → key = some ks → ∀ i, i < n → f.getD i false = true →
      KeyCmp.le KeyPad.inf (ks.getD i KeyPad.inf) = false) :
    ∃ r, uniqueMask x64 n k rows key filled size fill = some r ∧ r.mask = (uniqueMaskLegacy n k rows key filled).1 := by
  obtain ⟨r, hr, h1, h2⟩ := unique_mask_spec_partial (x64 := x64) (filled := filled) size fill hk hrows hkey hc hs
  obtain ⟨h3, h4⟩ := legacy_mask_spec_partial hrows key filled hfin
  refine ⟨r, hr, ?_⟩
  apply List.ext_getElem?
  intro i
  by_cases hi : i < n
  · rw [getElem?_of_lt false (by omega), getElem?_of_lt false (by omega)]
    congr 1
    have := (h2 i hi).trans (h4 i hi).symm
    cases ha : r.mask.getD i false <;> cases hb : (uniqueMaskLegacy n k rows key filled).1.getD i false <;>
      rw [ha, hb] at this <;> simp at this <;> rfl
  · rw [List.getElem?_eq_none (by omega), List.getElem?_eq_none (by omega)]

/-- `return_inverse`: two entries get the same number iff their items are equal and they are both filled or both unfilled. -/
theorem legacy_inverse {n k : Nat} {rows : List (List Nat)} (hrows : ∀ i, i < n → (rows.getD i []).length = k)
    (key : Option (List K)) (filled : Option (List Bool)) :
    (uniqueMaskLegacy n k rows key filled).2.2.length = n ∧
    ∀ i j, i < n → j < n →
      ((uniqueMaskLegacy n k rows key filled).2.2.getD i 0 = (uniqueMaskLegacy n k rows key filled).2.2.getD j 0 ↔
        rows.getD i [] = rows.getD j [] ∧ ∀ f, filled = some f → f.getD i false = f.getD j false) := by
  rcases Nat.eq_zero_or_pos n with h0 | hn
  · subst h0
    exact ⟨by simp [uniqueMaskLegacy], fun i j hi => absurd hi (by omega)⟩
  have e : (uniqueMaskLegacy n k rows key filled).2.2 = (jnpUnique (legacyLes k rows filled) n).2 := by
    unfold uniqueMaskLegacy; rw [if_neg (by omega)]; cases key <;> rfl
  rw [e]
  refine ⟨jnpUnique_inv_length _ _, fun i j hi hj => ?_⟩
  rw [legacy_inv_iff hrows hi hj]
  refine and_congr_right fun _ => ?_
  cases filled <;> simp [isFilled]

/-- `return_index` and `return_inverse` together: `index[inverse[i]]` is the representative of entry `i`: the preferred one of
the filled entries with an equal item.  (For an unfilled entry: the first unfilled entry with an equal item, or, if a `key` is
given, the batch length.) -/
theorem legacy_index {n k : Nat} {rows : List (List Nat)} (hrows : ∀ i, i < n → (rows.getD i []).length = k)
    (key : Option (List K)) (filled : Option (List Bool)) {i : Nat} (hi : i < n) :
    ∃ a, (uniqueMaskLegacy n k rows key filled).2.1[(uniqueMaskLegacy n k rows key filled).2.2.getD i 0]? = some a ∧
      ((∀ f, filled = some f → f.getD i false = true) →
        a < n ∧ rows.getD a [] = rows.getD i [] ∧ (∀ f, filled = some f → f.getD a false = true) ∧
        ∀ j, j < n → (∀ f, filled = some f → f.getD j false = true) → rows.getD j [] = rows.getD i [] → Preferred key a j) ∧
      (∀ f ks, filled = some f → key = some ks → f.getD i false = false → a = n) := by
  have hn : 0 < n := by omega
  have hfil : ∀ j, (∀ f, filled = some f → f.getD j false = true) ↔ isFilled filled j = true := by
    intro j; cases filled <;> simp [isFilled]
  unfold uniqueMaskLegacy
  rw [if_neg (by omega)]
  simp only [hfil]
  cases key with
  | none =>
    obtain ⟨a, ha, han, hs⟩ := jnpUnique_index_inv (legacyLes_isOrder k rows filled) hi
    refine ⟨a, ha, fun hf => ?_, fun f ks _ h => by cases h⟩
    obtain ⟨hr, hfe⟩ := (legacy_same_iff hrows han hi).1 hs
    refine ⟨han, hr, hfe.trans hf, fun j hj hfj hrj => ?_⟩
    exact (jnpUnique_index_first (legacyLes_isOrder _ _ _) hn (List.mem_of_getElem? ha)).2 j hj
      ((legacy_same_iff hrows hj han).2 ⟨hrj.trans hr.symm, by rw [hfj, hfe, hf]⟩)
  | some ks =>
    obtain ⟨hw1, hw2⟩ := legacyWinners_spec hrows ks filled hi
    -- the group ids are numbered as themselves
    have hids := jnpUnique_ids (f := fun i => (jnpUnique (legacyLes k rows filled) n).2.getD i 0) (n := n)
      (fun i v hi hv => jnpUnique_inv_contig hi hv) hi
    have hord : ∀ le ∈ [leBy fun i => (jnpUnique (legacyLes k rows filled) n).2.getD i 0], IsOrder le := fun le hle => by
      rw [List.mem_singleton] at hle; subst hle; exact leBy_isOrder _
    obtain ⟨b, hb, hbn, hsb⟩ := jnpUnique_index_inv hord hi
    rw [hids] at hb
    have hgb : (jnpUnique (legacyLes k rows filled) n).2.getD b 0 = (jnpUnique (legacyLes k rows filled) n).2.getD i 0 := by
      rw [sameAll_iff] at hsb
      exact leBy_same.1 (hsb _ (List.mem_singleton.2 rfl))
    simp only
    rw [List.getElem?_map, List.getElem?_map, hb]
    simp only [Option.map_some]
    rw [hgb]
    refine ⟨_, rfl, fun hf => ?_, fun f ks' hfe _ hf => hw1 (by rw [hfe]; exact hf)⟩
    obtain ⟨a1, a2, a3, a4⟩ := hw2 hf
    refine ⟨a1, a2, a3.1, fun j hj hfj hrj => ?_⟩
    exact (least_iff_preferred a3.1 a1).1 ⟨a3, fun j hj hr hc => a4 j hj (hr.trans a2) hc⟩ j hj hfj (hrj.trans a2.symm)

/-! ## Where the two implementations differ -/

/-- With both `key` and `filled`, a filled entry whose key is `+inf` is marked by `unique_mask_legacy` and not by `unique_mask`:
the claim that the legacy implementation marks exactly the representatives is false without the finiteness hypothesis. -/
theorem legacy_inf_key_false :
    (uniqueMaskLegacy 2 1 [[5], [6]] (some [(none : Option Nat), some 3]) (some [true, true])).1 = [true, true] ∧
    (uniqueMask false 2 1 [[5], [6]] (some [(none : Option Nat), some 3]) (some [true, true]) none none).map Result.mask
      = some [false, true] ∧
    ¬ IsRep 2 [[5], [6]] (some [true, true]) (some [(none : Option Nat), some 3]) 0 := by
  refine ⟨by decide +kernel, by decide +kernel, fun h => ?_⟩
  have := h.1.2 _ rfl
  exact absurd this (by decide)

/-- Non-vacuity of the hypotheses, and a case with duplicates, keys and unfilled entries. -/
example : (uniqueMaskLegacy 5 2 [[1, 2], [3, 4], [1, 2], [1, 2], [3, 4]] (some [some 7, some 1, some 3, some 3, (none : Option Nat)])
    (some [true, true, true, true, false])) = ([false, true, true, false, false], [2, 5, 1, 2, 2], [0, 2, 0, 0, 1]) := by
  decide +kernel

example : (uniqueMaskLegacy 5 2 [[1, 2], [3, 4], [1, 2], [1, 2], [3, 4]] (none : Option (List (Option Nat)))
    (some [true, true, true, true, false])).1 = [true, true, false, false, false] := by
  decide +kernel

example : ∀ f ks, some [true, true, true, true, false] = some f →
    some [some 7, some 1, some 3, some 3, (none : Option Nat)] = some ks → ∀ i, i < 5 → f.getD i false = true →
      KeyCmp.le KeyPad.inf (ks.getD i KeyPad.inf) = false := by
  intro f ks hf hk
  cases hf; cases hk
  decide

/-- Long rows: no hashing, distinct items stay distinct even if their wide hashes collide. -/
example : (uniqueMaskLegacy 2 6 [[1, 0, 0, 0, 0, 0], [0, 1, 0, 0, 0, 0]] (none : Option (List (Option Nat))) none).1
    = [true, true] := by
  decide +kernel

end Unique
