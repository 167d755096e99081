import Verif.BgpqProps

/-!
# BGPQ and keys of `-inf` (C71)

`jnp.isfinite(-inf)` is false, so the queue takes entries with key `-inf` for padding when it counts (bgpq.py:107,
_insert.py:47-49), although they sort first.  `SignedKey` (KeyOrd.lean) is a key type with a `-inf`.
-/

namespace Bgpq

open MergeModel

/-- `-inf`. -/
def negInf : SignedKey := ⟨some 0⟩

/-- The finite key `n`. -/
def finKey (n : Nat) : SignedKey := ⟨some (n + 1)⟩

/-- All entries of a queue with a key below `+inf`. -/
def stored (h : Heap SignedKey Nat) : List (SignedKey × Nat) :=
  (h.rows.flatten ++ h.buffer).filter fun p => p.1 ≠ ⟨none⟩

/-- `negInf` is a smallest key, and not finite for `jnp.isfinite`. -/
theorem negInf_least : (∀ k, KeyCmp.le negInf k = true) ∧ KeyPad.isFin negInf = false ∧
    (∀ n, KeyPad.isFin (finKey n) = true ∧ KeyCmp.le (finKey n) negInf = false) := by
  refine ⟨fun k => ?_, rfl, fun n => ⟨?_, ?_⟩⟩
  · obtain ⟨v⟩ := k
    cases v with
    | none => rfl
    | some n => show decide (0 ≤ n) = true; simp
  · show ((some (n + 1)).isSome && some (n + 1) != some 0) = true
    simp
  · show decide (n + 1 ≤ 0) = false
    simp

/-- **C71 is false**: a queue for 30 items in batches of 3 is given three items of key `-inf`, then two more of key `-inf` and one of
key 7: it stores five of the six, has lost the item of key 7, and reports size 0. -/
theorem neg_inf_keys_false :
    let b : Heap SignedKey Nat := build 30 3 0
    let h := insert (insert b [(negInf, 1), (negInf, 2), (negInf, 3)]) [(negInf, 4), (negInf, 5), (finKey 7, 6)]
    (stored h).map Prod.snd = [1, 2, 3, 4, 5] ∧ h.size = 0 ∧ h.maxSize = 30 := by
  decide +kernel

/-- One item of key `-inf` in an empty queue: stored and returned first, but not counted. -/
theorem neg_inf_not_counted :
    let b : Heap SignedKey Nat := build 30 3 0
    let h := insert b [(finKey 4, 1), (negInf, 2), (⟨none⟩, 0)]
    h.size = 1 ∧ (deleteMins h).map (fun x => (x.2.map Prod.snd, x.1.size)) = some ([2, 1, 0], 0) := by
  decide +kernel

/-- The same history with 0 in place of `-inf`: nothing is lost (compare `bgpq_conserves`, C07). -/
example :
    let b : Heap SignedKey Nat := build 30 3 0
    let h := insert (insert b [(finKey 0, 1), (finKey 0, 2), (finKey 0, 3)]) [(finKey 0, 4), (finKey 0, 5), (finKey 7, 6)]
    (stored h).map Prod.snd = [1, 2, 3, 4, 5, 6] ∧ h.size = 6 := by
  decide +kernel

end Bgpq
