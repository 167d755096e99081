import Verif.DedupeKey

/-!
# Integer `unique_key`s (C84)

Integer keys become floats before they are compared (`jnp.where(filled, key, jnp.inf)`).
-/

/-- Float values of integer keys: integers, and `none` for `+inf`. -/
instance : KeyTop (Option Int) where
  le a b := match a, b with
    | _, none => true
    | none, some _ => false
    | some x, some y => decide (x ≤ y)
  trans := by
    intro a b c; cases a <;> cases b <;> cases c <;> simp; omega
  total := by
    intro a b; cases a <;> cases b <;> simp; omega
  inf := none
  isFin := Option.isSome
  le_inf := by intro k; cases k <;> rfl

namespace Dedupe

open SortGroup DedupeSpec

theorem roundNat_small {p n : Nat} (h : n < 2 ^ p) : roundNat p n = n := by
  unfold roundNat; rw [if_pos h]

theorem log2_ge {p n : Nat} (h : 2 ^ p ≤ n) : p ≤ n.log2 := by
  have hn : n ≠ 0 := by have := Nat.two_pow_pos p; omega
  exact (Nat.le_log2 hn).2 h

theorem log2_bounds {n : Nat} (hn : n ≠ 0) : 2 ^ n.log2 ≤ n ∧ n < 2 ^ (n.log2 + 1) :=
  ⟨(Nat.le_log2 hn).1 (Nat.le_refl _), (Nat.log2_lt hn).1 (Nat.lt_succ_self _)⟩

/-- The result is one of the two multiples of the spacing around `n`, and not the farther one. -/
theorem roundNat_big {p n : Nat} (h : 2 ^ p ≤ n) :
    ∃ q, roundNat p n = q * 2 ^ (n.log2 + 1 - p) ∧ (q = n / 2 ^ (n.log2 + 1 - p) ∨ q = n / 2 ^ (n.log2 + 1 - p) + 1) := by
  unfold roundNat
  rw [if_neg (by omega)]
  simp only
  split
  · exact ⟨_, rfl, Or.inr rfl⟩
  · exact ⟨_, rfl, Or.inl rfl⟩

theorem roundNat_bounds {p n : Nat} (hp : 1 ≤ p) (h : 2 ^ p ≤ n) : 2 ^ n.log2 ≤ roundNat p n ∧ roundNat p n ≤ 2 ^ (n.log2 + 1) := by
  have hn : n ≠ 0 := by have := Nat.two_pow_pos p; omega
  have hl := log2_ge h
  obtain ⟨b1, b2⟩ := log2_bounds hn
  obtain ⟨q, e, hq⟩ := roundNat_big h
  generalize he : n.log2 + 1 - p = s at e hq
  have hs : n.log2 = (n.log2 - s) + s := by omega
  have hs2 : n.log2 + 1 = p + s := by omega
  have hpos : 0 < 2 ^ s := Nat.two_pow_pos s
  have l1 : 2 ^ (n.log2 - s) ≤ n / 2 ^ s := by
    rw [Nat.le_div_iff_mul_le hpos, ← Nat.pow_add, ← hs]; exact b1
  have l2 : n / 2 ^ s < 2 ^ p := by
    rw [Nat.div_lt_iff_lt_mul hpos, ← Nat.pow_add, ← hs2]; exact b2
  rw [e]
  constructor
  · rw [show 2 ^ n.log2 = 2 ^ (n.log2 - s) * 2 ^ s by rw [← Nat.pow_add, ← hs]]
    apply Nat.mul_le_mul_right
    omega
  · rw [hs2, Nat.pow_add]
    apply Nat.mul_le_mul_right
    omega

/-- Conversion is monotone. -/
theorem roundNat_mono {p : Nat} (hp : 1 ≤ p) {n m : Nat} (h : n ≤ m) : roundNat p n ≤ roundNat p m := by
  by_cases hn : n < 2 ^ p
  · rw [roundNat_small hn]
    by_cases hm : m < 2 ^ p
    · rw [roundNat_small hm]; exact h
    · have := (roundNat_bounds hp (by omega : 2 ^ p ≤ m)).1
      have : 2 ^ p ≤ 2 ^ m.log2 := Nat.pow_le_pow_right (by omega) (log2_ge (by omega))
      omega
  · have hn' : 2 ^ p ≤ n := by omega
    have hm' : 2 ^ p ≤ m := by omega
    have hn0 : n ≠ 0 := by have := Nat.two_pow_pos p; omega
    have hm0 : m ≠ 0 := by omega
    by_cases hl : n.log2 = m.log2
    · unfold roundNat
      rw [if_neg hn, if_neg (by omega), hl]
      simp only
      generalize m.log2 + 1 - p = s
      have hpos : 0 < 2 ^ s := Nat.two_pow_pos s
      apply Nat.mul_le_mul_right
      have hq : n / 2 ^ s ≤ m / 2 ^ s := Nat.div_le_div_right h
      by_cases hqe : n / 2 ^ s = m / 2 ^ s
      · have en := Nat.div_add_mod n (2 ^ s)
        have em := Nat.div_add_mod m (2 ^ s)
        rw [hqe] at en ⊢
        have hr : n % 2 ^ s ≤ m % 2 ^ s := by omega
        by_cases c1 : 2 ^ s < 2 * (n % 2 ^ s) ∨ (2 ^ s = 2 * (n % 2 ^ s) ∧ m / 2 ^ s % 2 = 1)
        · rw [if_pos c1, if_pos (by
            rcases c1 with c | ⟨c, d⟩
            · exact Or.inl (by omega)
            · by_cases e : n % 2 ^ s = m % 2 ^ s
              · exact Or.inr ⟨by omega, d⟩
              · exact Or.inl (by omega))]
          exact Nat.le_refl _
        · rw [if_neg c1]; split <;> omega
      · split <;> split <;> omega
    · have hll : n.log2 < m.log2 := by
        have : n.log2 ≤ m.log2 := (Nat.le_log2 hm0).2 (by have := (log2_bounds hn0).1; omega)
        omega
      have b1 := (roundNat_bounds hp hn').2
      have b2 := (roundNat_bounds hp hm').1
      have : 2 ^ (n.log2 + 1) ≤ 2 ^ m.log2 := Nat.pow_le_pow_right (by omega) hll
      omega

/-- Conversion is exact up to and including `2 ^ p`. -/
theorem roundNat_exact {p : Nat} (hp : 1 ≤ p) {n : Nat} (h : n ≤ 2 ^ p) : roundNat p n = n := by
  by_cases hn : n < 2 ^ p
  · exact roundNat_small hn
  · have e : n = 2 ^ p := by omega
    subst e
    unfold roundNat
    rw [if_neg (Nat.lt_irrefl _)]
    have hl : (2 ^ p).log2 = p := by
      simp
    have hs : p + 1 - p = 1 := by omega
    have hd : 2 ^ p = 2 ^ (p - 1) * 2 := by rw [← Nat.pow_succ]; congr 1; omega
    have e1 : 2 ^ p % 2 ^ 1 = 0 := by rw [hd]; simp
    have e2 : 2 ^ p / 2 ^ 1 = 2 ^ (p - 1) := by rw [hd]; simp
    rw [hl]
    simp only [hs, e1, e2]
    rw [if_neg (by omega)]
    omega

/-- The error of the conversion is at most half the spacing of the floats around `n`. -/
theorem roundNat_near {p n : Nat} (h : 2 ^ p ≤ n) :
    2 * (roundNat p n - n) ≤ 2 ^ (n.log2 + 1 - p) ∧ 2 * (n - roundNat p n) ≤ 2 ^ (n.log2 + 1 - p) := by
  unfold roundNat
  rw [if_neg (by omega)]
  simp only
  generalize n.log2 + 1 - p = s
  have hpos : 0 < 2 ^ s := Nat.two_pow_pos s
  have en := Nat.div_add_mod n (2 ^ s)
  have hr := Nat.mod_lt n hpos
  rw [Nat.mul_comm] at en
  split
  · rename_i c
    rw [Nat.add_mul, Nat.one_mul]
    generalize n / 2 ^ s * 2 ^ s = a at *
    omega
  · rename_i c
    generalize n / 2 ^ s * 2 ^ s = a at *
    omega

theorem roundInt_mono {p : Nat} (hp : 1 ≤ p) {n m : Int} (h : n ≤ m) : roundInt p n ≤ roundInt p m := by
  unfold roundInt
  by_cases hn : 0 ≤ n
  · rw [if_pos hn, if_pos (by omega)]
    have := roundNat_mono hp (by omega : n.toNat ≤ m.toNat)
    omega
  · rw [if_neg hn]
    by_cases hm : 0 ≤ m
    · rw [if_pos hm]; omega
    · rw [if_neg hm]
      have := roundNat_mono hp (by omega : (-m).toNat ≤ (-n).toNat)
      omega

theorem roundInt_exact {p : Nat} (hp : 1 ≤ p) {n : Int} (h : n.natAbs ≤ 2 ^ p) : roundInt p n = n := by
  unfold roundInt
  split
  · rw [roundNat_exact hp (by omega)]; omega
  · rw [roundNat_exact hp (by omega)]; omega

theorem le_intKey {p : Nat} {a b : Int} : KeyCmp.le (intKey p a) (intKey p b) = decide (roundInt p a ≤ roundInt p b) := rfl

variable {α : Type u}

/-- Integer keys are never `+inf`, so an unfilled lane never stands in for an item (`GuardFor`). -/
theorem int_keys_finite {p : Nat} (xs : List α) (filled : List Bool) {ks : List Int} (hks : ks.length = xs.length) :
    KeysFinite xs filled (some (ks.map (intKey p))) := by
  intro ks' e i hi _
  cases e
  rw [List.getD_eq_getElem?_getD, List.getElem?_map, List.getElem?_eq_getElem (by omega)]
  rfl

/-- In mode `exact` with integer keys nothing is asked of the items. -/
theorem int_keys_guard_exact {p : Nat} (E : Enc α) (xs : List α) (filled : List Bool) {ks : List Int} (hks : ks.length = xs.length) :
    GuardFor .exact E xs filled (some (ks.map (intKey p))) := Or.inr (Or.inl (int_keys_finite xs filled hks))

/-- **C84 (2).**  Integer keys (`ks`, one per lane), modes `safe` and `exact`, `p` bits of float precision (24, or 53 with x64): the chosen lane `j` is a filled lane
with the same item; every such lane that is strictly cheaper has a key that the float cannot tell from the key of `j`, and comes later; among equal keys
the lowest lane is taken.  If all keys are at most `2 ^ p` in magnitude the chosen lane is the cheapest. -/
theorem dedupe_int_keys_partial {p : Nat} (hp : 1 ≤ p) {mode : Mode} (E : Enc α) (xs : List α) (filled : List Bool)
    (ks : List Int) (hg : GuardFor mode E xs filled (some (ks.map (intKey p)))) (hks : ks.length = xs.length) (i : Nat) (hi : i < xs.length) (hf : filled[i]? = some true) :
    let j := (dedupe mode E xs filled (some (ks.map (intKey p)))).2.getD i 0
    j < xs.length ∧ filled[j]? = some true ∧ xs[j]? = xs[i]? ∧
    ∀ k, k < xs.length → filled[k]? = some true → xs[k]? = xs[i]? →
      (ks.getD k 0 < ks.getD j 0 → roundInt p (ks.getD k 0) = roundInt p (ks.getD j 0) ∧ j < k) ∧
      (ks.getD k 0 = ks.getD j 0 → j ≤ k) ∧
      ((∀ v ∈ ks, v.natAbs ≤ 2 ^ p) → ks.getD j 0 ≤ ks.getD k 0) := by
  intro j
  obtain ⟨hperm, hsort⟩ := dedupe_default_sorted E xs filled
  have hb := (dedupe_exact_partial E xs filled (some (ks.map (intKey p))) hg hperm hsort i hi).1 hf
  change IsBest xs filled (some (ks.map (intKey p))) i j at hb
  obtain ⟨h1, h2, h3, h4⟩ := hb
  have hkey : ∀ l, l < xs.length → keyOf (some (ks.map (intKey p))) l = intKey p (ks.getD l 0) := by
    intro l hl
    unfold keyOf
    simp only
    rw [List.getD_eq_getElem?_getD, List.getD_eq_getElem?_getD, List.getElem?_map, List.getElem?_eq_getElem (by omega)]
    rfl
  refine ⟨h1, h2, h3, fun k hk hfk hxk => ?_⟩
  obtain ⟨a, b⟩ := h4 k hk hfk hxk
  rw [hkey j h1, hkey k hk, le_intKey] at a b
  have a' := of_decide_eq_true a
  have b' : roundInt p (ks.getD k 0) ≤ roundInt p (ks.getD j 0) → j ≤ k := fun h => b (decide_eq_true h)
  refine ⟨fun hlt => ?_, fun he => b' (by rw [he]; exact Int.le_refl _), fun hsm => ?_⟩
  · have := roundInt_mono hp (Int.le_of_lt hlt)
    refine ⟨Int.le_antisymm this a', ?_⟩
    have hle := b' this
    have hne : j ≠ k := by intro e; rw [← e] at hlt; omega
    omega
  · have hmem : ∀ l, l < xs.length → ks.getD l 0 ∈ ks := by
      intro l hl
      rw [List.getD_eq_getElem?_getD, List.getElem?_eq_getElem (by omega)]
      exact List.getElem_mem _
    rwa [roundInt_exact hp (hsm _ (hmem _ h1)), roundInt_exact hp (hsm _ (hmem _ hk))] at a'

/-- Items used in examples: a number below `2 ^ 32` is its own word. -/
def exEnc : Enc (Fin 10) where
  wc := 1
  words x := [x.val]
  h1 x := x.val
  h2 x := x.val
  words_length := fun _ => rfl
  words_inj := fun x y h => by
    apply Fin.ext
    simpa using h

theorem exEnc_guard (xs : List (Fin 10)) (filled : List Bool) (h : ∀ i, i < xs.length → filled[i]? = some true) : Guard .safe exEnc xs filled := Or.inl h

/-- **C84, why (2) is partial.**  The full claim (the cheapest lane) is false for integers beyond `2 ^ 24`: two lanes with the same item, keys
`16777217` and `16777216`; the dearer one wins. -/
theorem int_keys_cheapest_false :
    ¬ ∀ (mode : Mode) (E : Enc (Fin 10)) (xs : List (Fin 10)) (filled : List Bool) (ks : List Int), Guard mode E xs filled →
      ks.length = xs.length → (∀ v ∈ ks, v < 2 ^ 31) → ∀ i k : Nat, i < xs.length → k < xs.length → filled[i]? = some true → filled[k]? = some true → xs[k]? = xs[i]? →
      ks.getD ((dedupe mode E xs filled (some (ks.map (intKey 24)))).2.getD i 0) 0 ≤ ks.getD k 0 := by
  intro h
  have := h .safe exEnc [7, 7] [true, true] [16777217, 16777216] (exEnc_guard _ _ (by decide)) rfl (by decide) 0 1 (by decide) (by decide) rfl rfl rfl
  revert this
  decide +kernel

/-- The hypotheses of (2) can be met: three lanes of one item and one of another, keys on both sides of `2 ^ 24`. -/
example : Guard .safe exEnc [7, 3, 7, 7] [true, true, true, true] ∧
    (dedupe .safe exEnc [7, 3, 7, 7] [true, true, true, true] (some ([16777217, -5, 16777216, 40000000].map (intKey 24)))).2 = [0, 1, 0, 0] ∧
    (dedupe .safe exEnc [7, 3, 7, 7] [true, true, true, true] (some ([16777217, -5, 16777216, 40000000].map (intKey 53)))).2 = [2, 1, 2, 2] :=
  ⟨exEnc_guard _ _ (by decide), by decide +kernel, by decide +kernel⟩

example : roundInt 24 16777217 = 16777216 ∧ roundInt 24 16777219 = 16777220 ∧ roundInt 24 (-33554435) = -33554436 ∧ roundInt 24 2147483647 = 2147483648 := by
  decide +kernel

end Dedupe
