/-!
# The JAX / XLA primitives the code relies on

Everything in this file is an *assumption about JAX* (it models no line of `/repo`); it is part of
the trusted base described in `DESIGN.md`.

* arrays of one batch dimension are `List`s;
* `uint32` scalars are naturals below `2 ^ 32`, `int32` scalars are integers in
  `[-2 ^ 31, 2 ^ 31)`;
* gather (`x[i]`) clamps an out-of-bounds index, scatter (`x.at[i].set(v)`) drops an out-of-bounds
  update, negative *signed* indices count from the end, unsigned indices do not.
-/

namespace Jax

/-- `jnp.uint32` wrap-around of an exact integer result. -/
def u32 (z : Int) : Nat := (z % (2 ^ 32 : Int)).toNat

/-- `jnp.int32` wrap-around (two's complement) of an exact integer result. -/
def i32 (z : Int) : Int := Int.bmod z (2 ^ 32)

/-- Normalisation of a signed index of an axis of length `n`: negative indices count from the end. -/
def normIdx (n : Nat) (i : Int) : Int := if i < 0 then i + n else i

/-- Clamp an index into `[0, n - 1]` (gather, default mode of `x[i]`). -/
def clampIdx (n : Nat) (i : Int) : Nat := min i.toNat (n - 1)

/-- `x[i]` for a signed index `i` (gather, clamped).  JAX refuses to index an axis of length 0,
so the model returns `none` exactly for an empty array. -/
def gather {α : Type u} (xs : List α) (i : Int) : Option α :=
  xs[clampIdx xs.length (normIdx xs.length i)]?

/-- `x[i]` for an unsigned index. -/
def gatherU {α : Type u} (xs : List α) (i : Nat) : Option α :=
  xs[clampIdx xs.length i]?

/-- `x.at[i].set(v)` for a signed index: dropped when out of bounds. -/
def scatter1 {α : Type u} (xs : List α) (i : Int) (v : α) : List α :=
  let j := normIdx xs.length i
  if 0 ≤ j ∧ j < xs.length then xs.set j.toNat v else xs

/-- `x.at[i].set(v)` for an unsigned index: dropped when out of bounds. -/
def scatterU1 {α : Type u} (xs : List α) (i : Nat) (v : α) : List α :=
  if i < xs.length then xs.set i v else xs

/-- `x.at[idx].set(vs)` with an index array: all updates applied (in order; the users of this
definition only pass pairwise distinct in-range indices, for which the order is irrelevant). -/
def scatter {α : Type u} (xs : List α) : List Int → List α → List α
  | i :: is, v :: vs => scatter (scatter1 xs i v) is vs
  | _, _ => xs

/-- `jnp.arange(n)`. -/
def arange (n : Nat) : List Int := (List.range n).map Int.ofNat

theorem u32_of_lt {n : Nat} (h : n < 2 ^ 32) : u32 (n : Int) = n := by
  unfold u32; omega

theorem i32_of_range {z : Int} (h1 : -(2 ^ 31 : Int) ≤ z) (h2 : z < 2 ^ 31) : i32 z = z := by
  unfold i32
  rw [Int.bmod_eq_of_le] <;> omega

@[simp] theorem scatter1_length {α : Type u} (xs : List α) (i : Int) (v : α) :
    (scatter1 xs i v).length = xs.length := by
  simp only [scatter1]; split <;> simp

@[simp] theorem scatterU1_length {α : Type u} (xs : List α) (i : Nat) (v : α) :
    (scatterU1 xs i v).length = xs.length := by
  simp only [scatterU1]; split <;> simp

@[simp] theorem scatter_length {α : Type u} (xs : List α) (is : List Int) (vs : List α) :
    (scatter xs is vs).length = xs.length := by
  induction is generalizing xs vs with
  | nil => simp [scatter]
  | cons i is ih => cases vs <;> simp [scatter, ih]

@[simp] theorem normIdx_nat (n s : Nat) : normIdx n (s : Int) = s := by
  unfold normIdx; split <;> omega

theorem scatter1_nat {α : Type u} (xs : List α) (s : Nat) (v : α) :
    scatter1 xs (s : Int) v = if s < xs.length then xs.set s v else xs := by
  simp [scatter1]

theorem gather_nat {α : Type u} (xs : List α) (s : Nat) :
    gather xs (s : Int) = xs[min s (xs.length - 1)]? := by
  simp [gather, clampIdx]

theorem gather_nat_of_lt {α : Type u} (xs : List α) (s : Nat) (h : s < xs.length) :
    gather xs (s : Int) = xs[s]? := by
  rw [gather_nat]; congr 1; omega

theorem gatherU_of_lt {α : Type u} (xs : List α) (s : Nat) (h : s < xs.length) :
    gatherU xs s = xs[s]? := by
  unfold gatherU clampIdx; congr 1; omega

/-- Scatter of consecutive indices `s, s+1, …`: the array read at `j` is the update aimed at `j`,
or the old content; updates past the end are dropped. -/
theorem scatter_consecutive {α : Type u} (xs : List α) (s : Nat) (vs : List α) (j : Nat) :
    (scatter xs ((List.range' s vs.length).map Int.ofNat) vs)[j]? =
      if j < xs.length then (if s ≤ j ∧ j < s + vs.length then vs[j - s]? else xs[j]?)
      else none := by
  induction vs generalizing xs s with
  | nil =>
    simp only [List.length_nil, List.range'_zero, List.map_nil, scatter]
    rw [if_neg (by omega : ¬ (s ≤ j ∧ j < s + 0))]
    split
    · rfl
    · exact List.getElem?_eq_none (by omega)
  | cons v vs ih =>
    simp only [List.length_cons, List.range'_succ, List.map_cons, scatter, ih, scatter1_length]
    have e : scatter1 xs (Int.ofNat s) v = if s < xs.length then xs.set s v else xs :=
      scatter1_nat xs s v
    rw [e]
    by_cases hj : j < xs.length
    · simp only [hj, if_true]
      by_cases h1 : s + 1 ≤ j ∧ j < s + 1 + vs.length
      · have : j - s = (j - (s+1)) + 1 := by omega
        rw [if_pos h1, if_pos (by omega), this]; simp
      · rw [if_neg h1]
        by_cases hs : s < xs.length
        · rw [if_pos hs]
          by_cases hjs : j = s
          · subst hjs; simp [hj]
          · rw [if_neg (by omega), List.getElem?_set_ne (by omega)]
        · rw [if_neg hs, if_neg (by omega)]
    · simp [hj]

/-- Insertion into a sorted list, before the first element that is not smaller. -/
def sortInsert {α : Type u} (le : α → α → Bool) (a : α) : List α → List α
  | [] => [a]
  | b :: l => if le a b then a :: b :: l else b :: sortInsert le a l

/-- The result of a stable sort (`jax.lax.sort_key_val(..., is_stable=True)`, `jnp.argsort(stable=True)`),
written as an insertion sort so that it computes in the kernel.  `stableSort_eq_mergeSort` shows that it is
core Lean's stable `List.mergeSort`. -/
def stableSort {α : Type u} (le : α → α → Bool) (l : List α) : List α := l.foldr (sortInsert le) []

theorem sortInsert_append {α : Type u} (le : α → α → Bool) (a : α) (l₂ : List α)
    (h2 : ∀ b ∈ l₂, le a b = true) : ∀ l₁ : List α, (∀ b ∈ l₁, (!le a b) = true) →
    sortInsert le a (l₁ ++ l₂) = l₁ ++ a :: l₂
  | [], _ => by
    cases l₂ with
    | nil => rfl
    | cons b l => simp [sortInsert, h2 b]
  | b :: l₁, h1 => by
    have hb : le a b = false := by simpa using h1 b (by simp)
    simp only [List.cons_append, sortInsert, hb]
    simp [sortInsert_append le a l₂ h2 l₁ (fun c hc => h1 c (by simp [hc]))]

theorem stableSort_eq_mergeSort {α : Type u} {le : α → α → Bool}
    (trans : ∀ a b c, le a b = true → le b c = true → le a c = true)
    (total : ∀ a b, (le a b || le b a) = true) (l : List α) : stableSort le l = l.mergeSort le := by
  induction l with
  | nil => simp [stableSort]
  | cons a l ih =>
    obtain ⟨l₁, l₂, e1, e2, h⟩ := List.mergeSort_cons trans total a l
    show sortInsert le a (stableSort le l) = _
    rw [ih, e1, e2]
    refine sortInsert_append le a l₂ ?_ l₁ h
    have hs := List.pairwise_mergeSort trans total (a :: l)
    rw [e1, List.pairwise_append, List.pairwise_cons] at hs
    exact hs.2.1.1

end Jax
