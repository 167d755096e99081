import Verif.HashConfig

/-!
# C85: concrete settings, and what packed hashing loses
-/

namespace HashModel

open Agg Bitpack
open Bgpq (Py Env Device CfgErr)
open HashTable (demoPy set1)

/-- Two fields: `a`, one `uint8` of 4 bits, and `b`, one `uint8` of 4 bits. -/
def exC : ACls where
  cls := .leaf "a" 4 [] (.leaf "b" 4 [1] .nil)
  dtypes := .leaf "a" (false, .b8) (.leaf "b" (false, .b8) .nil)
  wf := by simp [Agg.Cls.Wf, Agg.Cls.names]
  small := by decide

def exI (a b : List (BitVec 8)) : Agg.Inst DLeaf := .leaf "a" ⟨false, .w8 a⟩ (.leaf "b" ⟨false, .w8 b⟩ .nil)

/-- Settings of `XTRUCTURE_HASH_AGG_MODE`. -/
def exS (mode : String) (dev : Device) : Setup := ⟨demoPy, set1 "XTRUCTURE_HASH_AGG_MODE" mode, set1 "XTRUCTURE_AGG_BITPACK_PACK_WORD_TILE" "1", dev⟩

/-- A machine running the programs backwards on a buffer of ones. -/
def exK : Machine := ⟨fun t => List.replicate t.rows.length 1, fun t tile => (List.range (packGrid t tile)).reverse⟩

theorem exK_ok : exK.Ok := ⟨fun t => by simp [exK], fun t tile b hb => by simp [exK, hb]⟩

/-- The hypotheses of the theorems are met. -/
example : (exS "packed" .cpu).Ok exC.cls ∧ (exS "auto" .tpu).Ok exC.cls ∧ (exS "raw" .gpu).Ok exC.cls ∧ exC.Is 1 (exI [5] [9]) ∧ Fits exC.cls (exI [5] [9]) ∧
    UsesPacked demoPy (exS "packed" .cpu).env0 .cpu ∧ ¬ UsesPacked demoPy (exS "auto" .gpu).env0 .gpu := by
  refine ⟨⟨⟨?_, ?_, ?_⟩, fun _ _ => ⟨?_, ?_, ?_⟩⟩, ⟨⟨?_, ?_, ?_⟩, fun _ _ => ⟨?_, ?_, ?_⟩⟩, ⟨⟨?_, ?_, ?_⟩, fun _ _ => ⟨?_, ?_, ?_⟩⟩, ?_, ?_, ?_, ?_⟩
  all_goals simp [exS, exC, exI, HashTable.word, demoPy, set1, UsesPallas, UsesPacked, HashTable.IntOk, ACls.Is, imap, DLeaf.ints, DLeaf.dtype, Leaf.layout,
    Agg.Conforms, Bitpack.size, Fits, num]

/-- The words of an instance under settings. -/
def exWords (s : Setup) (flatN : Nat) (x : Agg.Inst DLeaf) : Option (List Nat) :=
  match s.viewAgg exK exC.cls flatN x 0 with
  | .ok (some v) => some (v.uint32ed.map BitVec.toNat)
  | _ => none

example : exWords (exS "raw" .cpu) 1 (exI [5] [9]) = some [5, 9] ∧ exWords (exS "packed" .cpu) 1 (exI [5] [9]) = some [0x95] ∧
    exWords (exS "auto" .tpu) 1 (exI [5] [9]) = some [0x95] ∧ exWords (exS "auto" .gpu) 1 (exI [5] [9]) = some [5, 9] ∧
    exWords (exS "other" .cpu) 1 (exI [5] [9]) = none := by decide +kernel

/-- **Values that do not fit.**  In packed mode a value is hashed modulo `2 ^ bits`: two different instances, both accepted by the class, have the same `uint32ed`
(in raw mode they do not); so the de-duplication of `parallel_insert`, even the exact one, takes them for one item and drops the second. -/
theorem packed_hash_needs_range :
    exC.Is 1 (exI [1] [2]) ∧ exC.Is 1 (exI [17] [2]) ∧ exI [1] [2] ≠ exI [17] [2] ∧
    exWords (exS "packed" .cpu) 1 (exI [1] [2]) = some [0x21] ∧ exWords (exS "packed" .cpu) 1 (exI [17] [2]) = some [0x21] ∧
    exWords (exS "raw" .cpu) 1 (exI [1] [2]) ≠ exWords (exS "raw" .cpu) 1 (exI [17] [2]) ∧
    (Dedupe.dedupePairs (K := Option Nat) .exact 2 1 [0, 0] [0, 0] [[0x21], [0x21]] [true, true] none).1 = [true, false] := by
  refine ⟨?_, ?_, ?_⟩
  · simp [exC, exI, ACls.Is, imap, DLeaf.ints, DLeaf.dtype, Leaf.layout, Agg.Conforms, Bitpack.size]
  · simp [exC, exI, ACls.Is, imap, DLeaf.ints, DLeaf.dtype, Leaf.layout, Agg.Conforms, Bitpack.size]
  · decide +kernel

/-- **Batches.**  In packed mode the words of a batched instance keep all the words but only the tail of its first element: two batches that differ in the second
element hash the same. -/
theorem packed_hash_of_batch_false :
    exC.Is 2 (exI [1, 3] [2, 4]) ∧ exC.Is 2 (exI [1, 5] [2, 6]) ∧
    exWords (exS "packed" .cpu) 2 (exI [1, 3] [2, 4]) = some [0x21] ∧ exWords (exS "packed" .cpu) 2 (exI [1, 5] [2, 6]) = some [0x21] ∧
    exWords (exS "raw" .cpu) 2 (exI [1, 3] [2, 4]) ≠ exWords (exS "raw" .cpu) 2 (exI [1, 5] [2, 6]) := by
  refine ⟨?_, ?_, ?_⟩
  · simp [exC, exI, ACls.Is, imap, DLeaf.ints, DLeaf.dtype, Leaf.layout, Agg.Conforms, Bitpack.size]
  · simp [exC, exI, ACls.Is, imap, DLeaf.ints, DLeaf.dtype, Leaf.layout, Agg.Conforms, Bitpack.size]
  · decide +kernel

def exItem (a b : BitVec 8) (h : a.toNat < 16 ∧ b.toNat < 16) : Item exC :=
  ⟨exI [a] [b], by simp [exC, exI, ACls.Is, imap, DLeaf.ints, DLeaf.dtype, Leaf.layout, Agg.Conforms, Bitpack.size],
    by simp [exC, exI, Fits, DLeaf.ints, num]; omega⟩

/-- **Mixed settings.**  The choice between raw and packed shows in the hashes, so a table filled under one is not searched correctly under the other: an item
inserted in raw mode is not found in packed mode. -/
theorem mixed_modes_false :
    let x := exItem 5 9 (by decide)
    let T := (HashTable.insert (itemHasher exC (.raw (.auto 8192)) 0) (HashTable.build x 64 1 1 none) x).1
    (HashTable.lookup (itemHasher exC (.raw (.auto 8192)) 0) T x).2 = true ∧ (HashTable.lookup (itemHasher exC .packed 0) T x).2 = false := by
  decide +kernel

end HashModel
