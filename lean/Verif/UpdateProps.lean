import Verif.UpdateModel

/-!
# C45: the first True wins
-/

namespace Update

open Jax SortGroup Dedupe

variable {ρ : Type u}

/-! ## Specification -/

/-- `k` is the first update that applies to row `j`. -/
def FirstHit (indices : List Int) (cond : List Bool) (j k : Nat) : Prop :=
  (cond[k]? = some true ∧ indices[k]? = some (j : Int)) ∧
  ∀ k' : Nat, k' < k → ¬ (cond[k']? = some true ∧ indices[k']? = some (j : Int))

/-! ## Lemmas -/

theorem scatterDrop_length (xs : List ρ) (safe : Nat → Nat) (values : Nat → Option ρ) (ord : List Nat) :
    (scatterDrop xs safe values ord).length = xs.length := by
  unfold scatterDrop
  induction ord generalizing xs with
  | nil => rfl
  | cons k ord ih =>
    simp only [List.foldl_cons]
    rw [ih]
    split
    · simp
    · rfl

theorem scatterDrop_miss (xs : List ρ) (safe : Nat → Nat) (values : Nat → Option ρ) (ord : List Nat) (j : Nat)
    (h : ∀ k ∈ ord, safe k ≠ j) : (scatterDrop xs safe values ord)[j]? = xs[j]? := by
  unfold scatterDrop
  induction ord generalizing xs with
  | nil => rfl
  | cons k ord ih =>
    simp only [List.foldl_cons]
    rw [ih _ (fun k' hk' => h k' (by simp [hk']))]
    have hk := h k (by simp)
    split
    · rw [List.getElem?_set_ne hk]
    · rfl

theorem scatterDrop_hit (xs : List ρ) (safe : Nat → Nat) (values : Nat → Option ρ) (ord : List Nat) (j k : Nat) (v : ρ)
    (hk : k ∈ ord) (hs : safe k = j) (hv : values k = some v) (hj : j < xs.length)
    (hu : ∀ k' ∈ ord, safe k' = j → k' = k) : (scatterDrop xs safe values ord)[j]? = some v := by
  have key : ∀ (ord : List Nat) (xs : List ρ), (k ∈ ord ∨ xs[j]? = some v) → j < xs.length → (∀ k' ∈ ord, safe k' = j → k' = k) →
      (scatterDrop xs safe values ord)[j]? = some v := by
    intro ord
    induction ord with
    | nil => intro xs h _ _; rcases h with h | h
             · cases h
             · exact h
    | cons a ord ih =>
      intro xs h hjx hu
      have hstep : scatterDrop xs safe values (a :: ord) =
          scatterDrop (match values a with | some v => xs.set (safe a) v | none => xs) safe values ord := rfl
      rw [hstep]
      apply ih
      · by_cases e : a = k
        · right
          subst e
          rw [hv]
          simp only
          rw [hs, List.getElem?_set_self hjx]
        · rcases h with h | h
          · left
            rcases List.mem_cons.1 h with h | h
            · exact absurd h.symm e
            · exact h
          · right
            have : safe a ≠ j := fun hj => e (hu a (by simp) hj)
            split
            · rw [List.getElem?_set_ne this]; exact h
            · exact h
      · split
        · simpa using hjx
        · exact hjx
      · exact fun k' hk' => hu k' (by simp [hk'])
  exact key ord xs (Or.inl hk) hj hu

theorem groupFirst {n : Nat} {le : Nat → Nat → Bool} (h : IsOrder le) {sorted : List Nat}
    (hp : sorted.Perm (List.range n)) (hs : sorted.Pairwise (Lex (· < ·) [le])) {p i : Nat} (hpi : sorted[p]? = some i) :
    (groupStarts (sameAll [le]) sorted).getD p false = true ↔ ∀ j, j < n → sameAll [le] j i = true → i ≤ j := by
  have hlen := perm_range_length hp
  have hpl : p < sorted.length := (List.getElem?_eq_some_iff.1 hpi).1
  have hle : ∀ l ∈ [le], IsOrder l := by intro l hl; rw [List.mem_singleton] at hl; subst hl; exact h
  have hpw : ∀ q q', q < q' → q' < sorted.length → Lex (· < ·) [le] (sorted.getD q 0) (sorted.getD q' 0) :=
    fun q q' h1 h2 => pairwise_getD hs h1 h2
  have hi : sorted.getD p 0 = i := getD_of_getElem? hpi
  constructor
  · intro hst j hj hsame
    obtain ⟨q, hq, hqj⟩ := perm_range_pos hp hj
    have hj' : sorted.getD q 0 = j := getD_of_getElem? hqj
    rcases Nat.lt_trichotomy q p with hqp | he | hpq
    · exfalso
      obtain ⟨p', rfl⟩ : ∃ p', p = p' + 1 := ⟨p - 1, by omega⟩
      rw [groupStarts_succ _ _ _ hpl] at hst
      have hne : sameAll [le] (sorted.getD p' 0) (sorted.getD (p' + 1) 0) = false := by simpa using hst
      rcases Nat.lt_or_ge q p' with hqp' | hqp'
      · have := lex_between hle (hpw q p' hqp' (by omega)) (hpw p' (p' + 1) (by omega) hpl)
          (by rw [hj', hi]; exact hsame)
        rw [this.2] at hne; cases hne
      · have : q = p' := by omega
        subst this
        rw [hj', hi, hsame] at hne; cases hne
    · subst he; rw [← hj', hi]; exact Nat.le_refl _
    · have := hpw p q hpq (by omega)
      rw [hi, hj'] at this
      exact Nat.le_of_lt (lex_of_same this (sameAll_symm hsame))
  · intro hall
    cases p with
    | zero => rfl
    | succ p =>
      rw [groupStarts_succ _ _ _ hpl]
      cases hc : sameAll [le] (sorted.getD p 0) (sorted.getD (p + 1) 0) with
      | false => rfl
      | true =>
        exfalso
        have hlt : sorted.getD p 0 < n := perm_range_lt hp (getElem?_of_lt 0 (by omega))
        rw [hi] at hc
        have h1 := hall _ hlt hc
        have := hpw p (p + 1) (by omega) hpl
        rw [hi] at this
        have := lex_of_same this hc
        omega

theorem perm_perm (n : Nat) (indices : List Int) (cond : List Bool) (m : Nat) :
    (perm n indices cond m).Perm (List.range m) := sortPasses_perm _ _

/-- An update wins iff it is valid and no earlier update has the same index. -/
theorem winners_iff {n m : Nat} {indices : List Int} {cond : List Bool} {k : Nat} (hk : k < m) :
    (winners n indices cond m).getD k false = true ↔ trueIdx n indices cond k ≠ n ∧
      ∀ k', k' < m → trueIdx n indices cond k' = trueIdx n indices cond k → k ≤ k' := by
  have hp := perm_perm n indices cond m
  have hlen := perm_range_length hp
  obtain ⟨p, hpm, hpk⟩ := perm_range_pos hp hk
  have hl : (winnersSorted n indices cond m).length = m := by
    unfold winnersSorted
    split
    · rename_i h; subst h; simp
    · simp
  have e : (winners n indices cond m)[k]? = (winnersSorted n indices cond m)[p]? := by
    rw [List.getElem?_eq_getElem (by omega : p < (winnersSorted n indices cond m).length)]
    exact scatterSet_mem _ _ _ p _ k hpk (List.getElem?_eq_getElem (by omega))
      (fun q hq => nodup_getElem?_inj (perm_range_nodup hp) hq hpk) (by simpa using hk)
  rw [List.getD_eq_getElem?_getD, e, ← List.getD_eq_getElem?_getD]
  have hw : (winnersSorted n indices cond m).getD p false =
      ((groupStarts (sameAll [leBy (trueIdx n indices cond)]) (perm n indices cond m)).getD p false &&
        trueIdx n indices cond k != n) := by
    have hd : (perm n indices cond m).getD p 0 = k := getD_of_getElem? hpk
    unfold winnersSorted
    by_cases h1 : m = 1
    · have hp0 : p = 0 := by omega
      subst hp0
      simp only [if_pos h1]
      rw [tab_getD _ _ (by omega), hd]
      rfl
    · simp only [if_neg h1]
      rw [tab_getD _ _ hpm, hd]
  rw [hw, Bool.and_eq_true, groupFirst (leBy_isOrder _) hp
    (sortPasses_lex _ _ List.pairwise_lt_range (fun le hle => by
      rw [List.mem_singleton] at hle; subst hle; exact leBy_isOrder _)) hpk]
  rw [and_comm]
  refine and_congr (by simp) ?_
  refine forall_congr' fun k' => imp_congr_right fun _ => ?_
  have : sameAll [leBy (trueIdx n indices cond)] k' k = true ↔ trueIdx n indices cond k' = trueIdx n indices cond k := by
    rw [sameAll_iff]
    constructor
    · intro h; exact leBy_same.1 (h _ (by simp))
    · intro h le hle
      rw [List.mem_singleton] at hle; subst hle
      exact leBy_same.2 h
  rw [this]

theorem trueIdx_eq_iff {n : Nat} {indices : List Int} {cond : List Bool} (hl : cond.length = indices.length) {j k : Nat} (hj : j < n) :
    trueIdx n indices cond k = j ↔ (cond[k]? = some true ∧ indices[k]? = some (j : Int)) := by
  unfold trueIdx condValid
  rw [List.getD_eq_getElem?_getD, List.getD_eq_getElem?_getD]
  by_cases hk : k < cond.length
  · rw [List.getElem?_eq_getElem hk, List.getElem?_eq_getElem (by omega : k < indices.length)]
    simp only [Option.getD_some, Option.some.injEq]
    cases hc : cond[k]
    · simp; omega
    · simp only [Bool.true_and, Bool.and_eq_true, decide_eq_true_eq, true_and]
      generalize indices[k] = x
      by_cases hb : 0 ≤ x ∧ x < n
      · rw [if_pos hb]; omega
      · rw [if_neg hb]; omega
  · have h1 : cond[k]? = none := List.getElem?_eq_none (by omega)
    have h2 : indices[k]? = none := List.getElem?_eq_none (by omega)
    rw [h1, h2]
    simp; omega

/-- **C45** (index arrays).  For one index array of any length, any mask and any order in which the scatter applies its updates: row `j` of
the result is the value of the first update with a true condition and index `j`, and the old row if there is none; indices outside
`0 … n-1` (negative ones too) have no effect. -/
theorem update_first_true_wins (xs : List ρ) {indices : List Int} {cond : List Bool} {values : List ρ} {ord : List Nat}
    (hi : cond.length = indices.length) (hv : cond.length = values.length) (ho : ord.Perm (List.range cond.length)) :
    ∃ ys, update xs indices cond values ord = some ys ∧ ys.length = xs.length ∧ ∀ j, j < xs.length →
      (∀ k, FirstHit indices cond j k → ys[j]? = values[k]?) ∧ ((∀ k, ¬ FirstHit indices cond j k) → ys[j]? = xs[j]?) := by
  by_cases h0 : cond.length = 0
  · refine ⟨xs, by unfold update; rw [if_pos h0], rfl, fun j _ => ⟨fun k hk => ?_, fun _ => rfl⟩⟩
    have := hk.1.1
    rw [List.getElem?_eq_none (by omega)] at this
    cases this
  · refine ⟨_, by unfold update; rw [if_neg h0, if_neg (by omega)], scatterDrop_length _ _ _ _, fun j hj => ?_⟩
    have hmem : ∀ k, k ∈ ord ↔ k < cond.length := fun k => by rw [ho.mem_iff, List.mem_range]
    have hsafe : ∀ k, k < cond.length → (safeIdx xs.length indices cond cond.length k = j ↔ FirstHit indices cond j k) := by
      intro k hk
      unfold safeIdx FirstHit
      rw [← trueIdx_eq_iff hi hj]
      by_cases hw : (winners xs.length indices cond cond.length).getD k false = true
      · rw [if_pos hw]
        obtain ⟨w1, w2⟩ := (winners_iff hk).1 hw
        have hcv : condValid xs.length indices cond k = true := by
          apply Classical.byContradiction
          intro h; unfold trueIdx at w1; rw [if_neg h] at w1; exact w1 rfl
        have e : trueIdx xs.length indices cond k = (indices.getD k 0).toNat := by unfold trueIdx; rw [if_pos hcv]
        rw [← e]
        constructor
        · intro h
          refine ⟨h, fun k' hk' hh => ?_⟩
          have := w2 k' (by omega) (((trueIdx_eq_iff hi hj).2 hh).trans h.symm)
          omega
        · exact fun h => h.1
      · rw [if_neg hw]
        constructor
        · intro h; omega
        · rintro ⟨h1, h2⟩
          exfalso
          apply hw
          rw [winners_iff hk]
          refine ⟨by omega, fun k' hk' he => ?_⟩
          apply Classical.byContradiction
          intro hlt
          exact h2 k' (by omega) ((trueIdx_eq_iff hi hj).1 (he.trans h1))
    constructor
    · intro k hk
      have hkl : k < cond.length := (List.getElem?_eq_some_iff.1 hk.1.1).1
      have hval : values[k]? = some values[k] := List.getElem?_eq_getElem (by omega)
      rw [hval]
      refine scatterDrop_hit _ _ _ _ j k _ ((hmem k).2 hkl) ((hsafe k hkl).2 hk) hval hj ?_
      intro k' hk' he
      have h1 := (hsafe k' ((hmem k').1 hk')).1 he
      rcases Nat.lt_trichotomy k k' with h | h | h
      · exact absurd hk.1 (h1.2 k h)
      · exact h.symm
      · exact absurd h1.1 (hk.2 k' h)
    · intro hno
      exact scatterDrop_miss _ _ _ _ j fun k hk he => hno k ((hsafe k ((hmem k).1 hk)).1 he)

/-- Non-trivial case: duplicates, out-of-range and negative indices, false conditions; scatter applied backwards. -/
example : update [10, 11, 12] [1, 1, -1, 5, 1, 0] [false, true, true, true, true, true] [100, 101, 102, 103, 104, 105]
    [5, 4, 3, 2, 1, 0] = some [105, 101, 12] := by decide +kernel

/-- Product of the axes: the number of rows of the flattened array. -/
def prod (shape : List Nat) : Nat := shape.foldl (· * ·) 1

theorem prod_cons (d : Nat) (shape : List Nat) : prod (d :: shape) = d * prod shape := by
  have : ∀ (l : List Nat) (a : Nat), l.foldl (· * ·) a = a * l.foldl (· * ·) 1 := by
    intro l
    induction l with
    | nil => intro a; simp
    | cons x l ih => intro a; simp only [List.foldl_cons]; rw [ih (a * x), ih (1 * x), Nat.one_mul, Nat.mul_assoc]
  unfold prod
  rw [List.foldl_cons, this, Nat.one_mul]

/-- Row-major position of an index tuple within its axes. -/
def ravel : List Nat → List Nat → Nat
  | _ :: dims, i :: idx => i * prod dims + ravel dims idx
  | _, _ => 0

/-- An index tuple within its axes. -/
inductive InAxes : List Nat → List Nat → Prop
  | nil : InAxes [] []
  | cons {i d : Nat} {idx shape : List Nat} : i < d → InAxes shape idx → InAxes (d :: shape) (i :: idx)

theorem ravel_lt {shape idx : List Nat} (h : InAxes shape idx) : ravel shape idx < prod shape := by
  induction h with
  | nil => decide
  | @cons i d idx shape hi _ ih =>
    rw [ravel, prod_cons]
    have : (i + 1) * prod shape ≤ d * prod shape := Nat.mul_le_mul_right _ hi
    rw [Nat.succ_mul] at this
    omega

theorem ravel_inj {shape idx idx' : List Nat} (h : InAxes shape idx) (h' : InAxes shape idx') (he : ravel shape idx = ravel shape idx') :
    idx = idx' := by
  induction h generalizing idx' with
  | nil => cases h'; rfl
  | @cons i d idx shape hi hrest ih =>
    cases h' with
    | @cons i' _ idx'' _ hi' hrest' =>
      rw [ravel, ravel] at he
      have l1 := ravel_lt hrest
      have l2 := ravel_lt hrest'
      have hp : 0 < prod shape := by omega
      have e1 : i = i' := by
        have : (i * prod shape + ravel shape idx) / prod shape = (i' * prod shape + ravel shape idx'') / prod shape := by rw [he]
        rw [Nat.mul_comm, Nat.mul_add_div hp, Nat.mul_comm i', Nat.mul_add_div hp, Nat.div_eq_of_lt l1, Nat.div_eq_of_lt l2] at this
        omega
      subst e1
      rw [ih hrest' (by omega)]

theorem ravelClip_inAxes {shape idx : List Nat} (h : InAxes shape idx) : ravelClip shape (idx.map Int.ofNat) = ravel shape idx := by
  induction h with
  | nil => rfl
  | @cons i d idx shape hi _ ih =>
    simp only [List.map_cons, ravelClip, ravel, ih]
    congr 2
    show (max 0 (min (i : Int) ((d : Int) - 1))).toNat = i
    omega

/-- **C45** (tuples of index arrays, partial: all index tuples within their axes).  The element at index tuple `t` of the result is the value
of the first update with a true condition and index tuple `t`, and the old element if there is none. -/
theorem update_tuple_partial {shape : List Nat} {xs : List ρ} (hx : xs.length = prod shape) {tuples : List (List Nat)} {cond : List Bool}
    {values : List ρ} {ord : List Nat} (hi : cond.length = tuples.length) (hv : cond.length = values.length)
    (ho : ord.Perm (List.range cond.length)) (hin : ∀ t ∈ tuples, InAxes shape t) :
    ∃ ys, updateTuple shape xs (tuples.map fun t => t.map Int.ofNat) cond values ord = some ys ∧ ys.length = xs.length ∧
      ∀ t, InAxes shape t →
        (∀ k : Nat, (cond[k]? = some true ∧ tuples[k]? = some t) →
          (∀ k' : Nat, k' < k → ¬ (cond[k']? = some true ∧ tuples[k']? = some t)) → ys[ravel shape t]? = values[k]?) ∧
        ((∀ k : Nat, ¬ (cond[k]? = some true ∧ tuples[k]? = some t)) → ys[ravel shape t]? = xs[ravel shape t]?) := by
  unfold updateTuple
  have hmap : (tuples.map fun t => t.map Int.ofNat).map (fun t => (ravelClip shape t : Int)) =
      tuples.map fun t => ((ravel shape t : Nat) : Int) := by
    rw [List.map_map]
    apply List.map_congr_left
    intro t ht
    simp only [Function.comp]
    rw [ravelClip_inAxes (hin t ht)]
  rw [hmap]
  obtain ⟨ys, h1, h2, h3⟩ := update_first_true_wins xs (indices := tuples.map fun t => ((ravel shape t : Nat) : Int)) (cond := cond)
    (values := values) (ord := ord) (by rw [List.length_map]; exact hi) hv ho
  refine ⟨ys, h1, h2, fun t ht => ?_⟩
  obtain ⟨h4, h5⟩ := h3 (ravel shape t) (by rw [hx]; exact ravel_lt ht)
  have hiff : ∀ k : Nat, (tuples.map fun t => ((ravel shape t : Nat) : Int))[k]? = some ((ravel shape t : Nat) : Int) ↔ tuples[k]? = some t := by
    intro k
    rw [List.getElem?_map]
    cases hk : tuples[k]? with
    | none => simp
    | some t' =>
      simp only [Option.map_some, Option.some.injEq]
      have ht' := hin t' (List.mem_of_getElem? hk)
      exact ⟨fun h => ravel_inj ht' ht (by omega), fun h => by rw [h]⟩
  constructor
  · intro k hk hk'
    refine h4 k ⟨⟨hk.1, (hiff k).2 hk.2⟩, fun k' hlt hh => hk' k' hlt ⟨hh.1, (hiff k').1 hh.2⟩⟩
  · intro hno
    exact h5 fun k hk => hno k ⟨hk.1.1, (hiff k).1 hk.1.2⟩

/-- For tuples an out-of-range index is *not* without effect: it is clipped to the last (or first) position of its axis. -/
theorem update_tuple_out_of_range_false :
    updateTuple [2, 3] [0, 1, 2, 3, 4, 5] [[0, 7], [-5, 1]] [true, true] [100, 101] [0, 1] = some [0, 101, 100, 3, 4, 5] := by
  decide +kernel

example : updateTuple [2, 3] [0, 1, 2, 3, 4, 5] [[1, 2], [0, 1], [1, 2]] [true, true, true] [100, 101, 102] [2, 1, 0] =
    some [0, 101, 2, 3, 4, 100] := by decide +kernel

end Update
