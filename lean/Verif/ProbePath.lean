import Verif.BackendModel

/-!
# C24: the probe sequence visits every bucket

`path H T x j` is the `j`-th bucket probed for `x`: start bucket, then `(b + step) & mask` repeatedly.
-/

namespace HashTable

variable {α : Type u}

/-- An odd number has an inverse modulo `2 ^ k`. -/
theorem odd_inverse (s : Nat) (hs : s % 2 = 1) (k : Nat) : ∃ t m : Nat, s * t = 1 + m * 2 ^ k := by
  induction k with
  | zero => exact ⟨1, s - 1, by simp; omega⟩
  | succ k ih =>
    obtain ⟨t, m, h⟩ := ih
    rcases Nat.mod_two_eq_zero_or_one m with hm | hm
    · refine ⟨t, m / 2, ?_⟩
      have : m = 2 * (m / 2) := by omega
      rw [h, Nat.pow_succ]
      congr 1
      rw [Nat.mul_comm (2 ^ k) 2, ← Nat.mul_assoc]
      congr 1
      omega
    · refine ⟨t + 2 ^ k, (m + s) / 2, ?_⟩
      have : m + s = (m + s) / 2 * 2 := by omega
      rw [Nat.mul_add, h, Nat.pow_succ, Nat.mul_comm (2 ^ k) 2, ← Nat.mul_assoc, ← this, Nat.add_mul,
        Nat.add_assoc]

/-- `i ↦ (a + i * s) mod 2 ^ k` is injective below `2 ^ k` for odd `s`. -/
theorem odd_step_inj {a s k i j : Nat} (hs : s % 2 = 1) (hi : i < 2 ^ k) (hj : j < 2 ^ k)
    (h : (a + i * s) % 2 ^ k = (a + j * s) % 2 ^ k) : i = j := by
  obtain ⟨t, m, ht⟩ := odd_inverse s hs k
  have hpos : 0 < 2 ^ k := Nat.two_pow_pos k
  -- multiply by the inverse
  have key : ∀ n : Nat, ((a + n * s) % 2 ^ k * t) % 2 ^ k = (a * t + n) % 2 ^ k := by
    intro n
    rw [Nat.mod_mul_mod, Nat.add_mul, Nat.mul_assoc, ht, Nat.mul_add, Nat.mul_one, ← Nat.mul_assoc,
      ← Nat.add_assoc, Nat.add_mul_mod_self_right]
  have h1 : (a * t + i) % 2 ^ k = (a * t + j) % 2 ^ k := by rw [← key i, ← key j, h]
  have hd : ∀ u v : Nat, u ≤ v → v < 2 ^ k → (a * t + u) % 2 ^ k = (a * t + v) % 2 ^ k → u = v := by
    intro u v huv hv he
    have : (2 ^ k) ∣ (a * t + v) - (a * t + u) := Nat.dvd_of_mod_eq_zero (Nat.sub_mod_eq_zero_of_mod_eq he.symm)
    have e : (a * t + v) - (a * t + u) = v - u := by omega
    rw [e] at this
    have := Nat.eq_zero_of_dvd_of_lt this (by omega)
    omega
  rcases Nat.le_total i j with hij | hij
  · exact hd i j hij hj h1
  · exact (hd j i hij hi h1.symm).symm

/-- `i ↦ (a + i * s) mod 2 ^ k` reaches every residue below `2 ^ k` for odd `s`. -/
theorem odd_step_surj {a s k b : Nat} (hs : s % 2 = 1) (hb : b < 2 ^ k) :
    ∃ j, j < 2 ^ k ∧ (a + j * s) % 2 ^ k = b := by
  obtain ⟨t, m, ht⟩ := odd_inverse s hs k
  have hpos : 0 < 2 ^ k := Nat.two_pow_pos k
  refine ⟨((b + 2 ^ k - a % 2 ^ k) * t) % 2 ^ k, Nat.mod_lt _ hpos, ?_⟩
  rw [Nat.add_mod, Nat.mod_mul_mod, Nat.mul_assoc, Nat.mul_comm t s, ht, Nat.mul_add, Nat.mul_one, ← Nat.mul_assoc,
    Nat.add_mul_mod_self_right, ← Nat.add_mod]
  have : a % 2 ^ k < 2 ^ k := Nat.mod_lt _ hpos
  rw [← Nat.mod_add_mod]
  have e : a % 2 ^ k + (b + 2 ^ k - a % 2 ^ k) = b + 2 ^ k := by omega
  rw [e, Nat.add_mod_right, Nat.mod_eq_of_lt hb]

/-- The probe path of an item. -/
def path (H : Hasher α) (T : Table α) (x : α) : Nat → Nat
  | 0 => start H T x
  | j + 1 => next T (path H T x j) (step H T x)

theorem pow2_and {k : Nat} : 2 ^ k &&& (2 ^ k - 1) = 0 := by
  rw [Nat.and_two_pow_sub_one_eq_mod, Nat.mod_self]

theorem max_cap {k cap : Nat} (hc : cap = 2 ^ k) : max cap 1 = 2 ^ k := by
  have := Nat.two_pow_pos k; omega

theorem start_eq (H : Hasher α) {T : Table α} {k : Nat} (hc : T.cap = 2 ^ k) (x : α) :
    start H T x = H.h1 x % T.cap := by
  simp only [start, max_cap hc]
  rw [if_pos pow2_and, Nat.and_two_pow_sub_one_eq_mod, hc]

theorem step_odd (H : Hasher α) (T : Table α) (x : α) : step H T x % 2 = 1 := by
  simp only [step]
  rw [Nat.mod_two_eq_one_iff_testBit_zero, Nat.testBit_or]
  simp

theorem next_eq {T : Table α} {k : Nat} (hc : T.cap = 2 ^ k) (hk : k ≤ 32) (b st : Nat) :
    next T b st = (b + st) % T.cap := by
  unfold next
  rw [hc, Nat.and_two_pow_sub_one_eq_mod, Nat.mod_mod_of_dvd _ (Nat.pow_dvd_pow 2 hk)]

theorem path_eq (H : Hasher α) {T : Table α} {k : Nat} (hc : T.cap = 2 ^ k) (hk : k ≤ 32) (x : α) (j : Nat) :
    path H T x j = (H.h1 x + j * step H T x) % T.cap := by
  induction j with
  | zero => simp [path, start_eq H hc]
  | succ j ih =>
    simp only [path]
    rw [next_eq hc hk, ih, Nat.mod_add_mod, Nat.succ_mul, Nat.add_assoc]

theorem path_lt (H : Hasher α) {T : Table α} {k : Nat} (hc : T.cap = 2 ^ k) (hk : k ≤ 32) (x : α) (j : Nat) :
    path H T x j < T.cap := by
  rw [path_eq H hc hk]; apply Nat.mod_lt; rw [hc]; exact Nat.two_pow_pos k

/-- **C24.**  The first `_capacity` buckets on the probe path of any item are pairwise distinct, and they are all the
buckets: each bucket is probed exactly once. -/
theorem probe_visits_all (H : Hasher α) (T : Table α) (k : Nat) (hc : T.cap = 2 ^ k) (hk : k ≤ 32) (x : α) :
    (∀ i j, i < T.cap → j < T.cap → path H T x i = path H T x j → i = j) ∧
    (∀ b, b < T.cap → ∃ j, j < T.cap ∧ path H T x j = b) := by
  constructor
  · intro i j hi hj h
    rw [path_eq H hc hk, path_eq H hc hk, hc] at h
    rw [hc] at hi hj
    exact odd_step_inj (step_odd H T x) hi hj h
  · intro b hb
    rw [hc] at hb
    obtain ⟨j, hj, he⟩ := odd_step_surj (a := H.h1 x) (step_odd H T x) hb
    exact ⟨j, by rw [hc]; exact hj, by rw [path_eq H hc hk, hc]; exact he⟩

/-- Every table built by `HashTable.build` has a power-of-two number of buckets. -/
theorem build_cap_pow2 (d : α) (capacity bs mult : Nat) (mp : Option Nat) :
    ∃ k, (build d capacity bs mult mp).cap = 2 ^ k := by
  simp only [build, internalCap]
  split
  · exact ⟨0, rfl⟩
  · exact ⟨_, rfl⟩

/-- The bucket array is large enough: at least `multiplier * capacity / bucket_size` buckets. -/
theorem build_cap_ge (d : α) (capacity bs mult : Nat) (mp : Option Nat) :
    mult * capacity / bs ≤ (build d capacity bs mult mp).cap := by
  simp only [build, internalCap]
  split
  · omega
  · rename_i h
    have := @Nat.lt_log2_self (mult * capacity / bs - 1)
    omega

end HashTable
