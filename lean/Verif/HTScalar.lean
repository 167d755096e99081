import Verif.HTProps

/-!
# The argument `filled` of `parallel_insert` and `lookup_parallel`

It may be left out, a scalar, or a mask.
-/

namespace HashTable

open Jax SortGroup Dedupe DedupeSpec

variable {α : Type u} [DecidableEq α] {K : Type v} [KeyTop K]

/-- The argument `filled`. -/
inductive Filled
  | absent
  | scalar (b : Bool)
  | mask (l : List Bool)

/-- `parallel_insert(inputs, filled, unique_key)` (insert.py:388-393, 545-552). -/
def parallelInsertArg (be : Backend) (mode : Mode) (H : Hasher α) (T : Table α) (xs : List α) (f : Filled) (key : Option (List K)) : PResult α :=
  match f with
  | .absent => parallelInsert be mode H T xs (xs.map fun _ => true) key
  | .scalar true => parallelInsert be mode H T xs (xs.map fun _ => true) key
  | .scalar false => parallelInsertEmpty T xs
  | .mask l => parallelInsert be mode H T xs l key

/-- `_empty_result` (lookup.py:333-337). -/
def lookupEmpty (xs : List α) : List (Nat × Bool) := xs.map fun _ => (0, false)

/-- `lookup_parallel(inputs, filled=True)` (lookup.py:302-348). -/
def lookupParallelArg (H : Hasher α) (T : Table α) (xs : List α) (f : Filled) : List (Nat × Bool) :=
  match f with
  | .absent => lookupParallel H T xs (xs.map fun _ => true)
  | .scalar true => lookupParallel H T xs (xs.map fun _ => true)
  | .scalar false => lookupEmpty xs
  | .mask l => lookupParallel H T xs l

/-- Specification: which lanes take part. -/
def Filled.takesPart : Filled → Nat → Prop
  | .absent, _ => True
  | .scalar b, _ => b = true
  | .mask l, i => l[i]? = some true

variable {H : Hasher α} {T : Table α}

omit [DecidableEq α] in
theorem allTrue_getElem? (xs : List α) {l : Nat} {x : α} (hx : xs[l]? = some x) : (xs.map fun _ => true)[l]? = some true := by
  rw [List.getElem?_map, hx]; rfl

/-- **C26 for every form of `filled`.**  Lanes that take part get the found flag of `lookup`, and its index when found; the
others are not found. -/
theorem lookup_parallel_filled (H : Hasher α) (T : Table α) (xs : List α) (f : Filled) (l : Nat) (x : α) (hx : xs[l]? = some x) :
    ∃ i found, (lookupParallelArg H T xs f)[l]? = some (i, found) ∧
      (f.takesPart l → found = (lookup H T x).2 ∧ (found = true → i = (lookup H T x).1)) ∧
      (¬ f.takesPart l → found = false) := by
  have hall : ∃ i found, (lookupParallel H T xs (xs.map fun _ => true))[l]? = some (i, found) ∧
      found = (lookup H T x).2 ∧ (found = true → i = (lookup H T x).1) := by
    obtain ⟨i, fd, h1, h2, _⟩ := lookup_parallel_agrees H T xs (xs.map fun _ => true) l x hx
    exact ⟨i, fd, h1, h2 (allTrue_getElem? xs hx)⟩
  match f with
  | .absent =>
    obtain ⟨i, fd, h1, h2⟩ := hall
    exact ⟨i, fd, h1, fun _ => h2, fun h => absurd trivial h⟩
  | .scalar true =>
    obtain ⟨i, fd, h1, h2⟩ := hall
    exact ⟨i, fd, h1, fun _ => h2, fun h => absurd rfl h⟩
  | .scalar false =>
    refine ⟨0, false, ?_, fun h => (by cases h), fun _ => rfl⟩
    show (xs.map fun _ => (0, false))[l]? = _
    rw [List.getElem?_map, hx]; rfl
  | .mask m => exact lookup_parallel_agrees H T xs m l x hx

/-- **C21 for every form of `filled`.**  The contents afterwards are the contents before plus the items reported inserted;
only items of lanes that take part are reported, only items not stored before, and each of them once. -/
theorem parallel_insert_filled (hr : Reachable K H T) (be : Backend) (mode : Mode) (xs : List α) (f : Filled) (key : Option (List K)) :
    let r := parallelInsertArg be mode H T xs f key
    Reachable K H r.table ∧
    (∀ x, (∃ i, Stored r.table x i) ↔ (∃ i, Stored T x i) ∨ ∃ l : Nat, r.inserted[l]? = some true ∧ xs[l]? = some x) ∧
    (∀ l : Nat, r.inserted[l]? = some true → f.takesPart l ∧ r.unique[l]? = some true ∧ ∀ x, xs[l]? = some x → ¬ ∃ i, Stored T x i) ∧
    (∀ l l' : Nat, r.inserted[l]? = some true → r.inserted[l']? = some true → xs[l]? = xs[l']? → l = l') := by
  have hmask : ∀ m : List Bool, Reachable K H (parallelInsert be mode H T xs m key).table := fun m => hr.run (.parallelInsert be mode xs m key)
  have hno : ∀ l : Nat, (xs.map fun _ => false)[l]? ≠ some true := by
    intro l h
    rw [List.getElem?_map] at h
    cases hx : xs[l]? with
    | none => rw [hx] at h; cases h
    | some x => rw [hx] at h; cases h
  match f with
  | .absent =>
    obtain ⟨h1, h2, h3⟩ := parallel_insert_union hr be mode xs (xs.map fun _ => true) key
    exact ⟨hmask _, h1, fun l hl => ⟨trivial, (h2 l hl).2⟩, h3⟩
  | .scalar true =>
    obtain ⟨h1, h2, h3⟩ := parallel_insert_union hr be mode xs (xs.map fun _ => true) key
    exact ⟨hmask _, h1, fun l hl => ⟨rfl, (h2 l hl).2⟩, h3⟩
  | .scalar false =>
    refine ⟨hr, fun x => ⟨Or.inl, ?_⟩, fun l hl => absurd hl (hno l), fun l _ hl => absurd hl (hno l)⟩
    rintro (h | ⟨l, hl, _⟩)
    · exact h
    · exact absurd hl (hno l)
  | .mask m =>
    obtain ⟨h1, h2, h3⟩ := parallel_insert_union hr be mode xs m key
    exact ⟨hmask _, h1, h2, h3⟩

/-- A scalar `False` leaves the table as it is, bit for bit. -/
theorem parallel_insert_scalar_false (be : Backend) (mode : Mode) (xs : List α) (key : Option (List K)) :
    parallelInsertArg be mode H T xs (.scalar false) key = ⟨T, xs.map fun _ => false, xs.map fun _ => false, xs.map fun _ => 0⟩ := rfl

/-- An all-`False` mask stores and reports nothing either. -/
theorem parallel_insert_nothing_filled (hr : Reachable K H T) (be : Backend) (mode : Mode) (xs : List α) (m : List Bool)
    (hm : ∀ l : Nat, m[l]? ≠ some true) (key : Option (List K)) :
    let r := parallelInsertArg be mode H T xs (.mask m) key
    (∀ l : Nat, r.inserted[l]? ≠ some true) ∧ ∀ x, (∃ i, Stored r.table x i) ↔ ∃ i, Stored T x i := by
  intro r
  obtain ⟨_, h1, h2, _⟩ := parallel_insert_filled hr be mode xs (.mask m) key
  have hno : ∀ l : Nat, r.inserted[l]? ≠ some true := fun l hl => hm l (h2 l hl).1
  refine ⟨hno, fun x => (h1 x).trans ⟨?_, Or.inl⟩⟩
  rintro (h | ⟨l, hl, _⟩)
  · exact h
  · exact absurd hl (hno l)

/-- Non-vacuity: without a mask two of three lanes are inserted (a duplicate), with a scalar `False` none is. -/
example :
    let T : Table Nat := build 0 8 2 2 none
    let r := parallelInsertArg (K := Option Nat) .xla .safe exHasher T [8, 1, 8] .absent none
    r.inserted = [true, true, false] ∧ r.table.size = 2 ∧
    (parallelInsertArg (K := Option Nat) .xla .safe exHasher r.table [8, 7] (.scalar false) none).table.size = 2 ∧
    (lookupParallelArg exHasher r.table [1, 8, 5] .absent).map Prod.snd = [true, true, false] ∧
    (lookupParallelArg exHasher r.table [1, 8, 5] (.scalar false)).map Prod.snd = [false, false, false] := by
  decide +kernel

end HashTable
