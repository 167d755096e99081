import Verif.StoreTypes
import Verif.BgpqDtype
import Verif.BgpqNatural
import Verif.SoALaws2

/-!
# C110: `BGPQ.insert` with values of other dtypes

Unlike `Stack` and `Queue`, the queue traces `lax.cond`s whose branches must agree in every dtype.
-/

namespace StoreTypes

open SoA Agg WhereTypes Bgpq MergeModel BgpqSpec

/-! ## Model -/

/-- The dtypes of one field of `val_store` and `val_buffer`. -/
structure FieldDt where
  store : Dt
  buffer : Dt
  deriving DecidableEq

/-- `jax.lax.cond`: both branches must return the same dtype, `none` is a `TypeError` at trace time. -/
def condV (a b : Dt) : Option Dt := if a = b then some a else none

/-- `_gather_sorted_values` (_merge.py:22-53): `jnp.where` (or `concatenate`) of the two values has their common dtype.  (The GPU key-value kernels are not
modelled.) -/
def mergeV (a b : Dt) : Dt := a.promote b

/-- One field while `_bgpq_insert_heapify_internal` is traced (_insert.py:93-191): `cond` of `scan_body` (134-146) returns the merged node or the node, and the
rest or the carry; the scatters (lines 123-124, 156-171) keep the dtype of the store. -/
def heapifyV (h : FieldDt) (blk : Dt) : Option FieldDt := do
  let _head ← condV (mergeV h.store blk) h.store
  let _carry ← condV (mergeV h.store blk) blk
  some h

/-- One field while `_bgpq_insert_jit` is traced (_insert.py:195-221): merge with the root, `val_store.at[0].set` (keeps the dtype), merge with the buffer, whose
new dtype is the merged one (line 67), and the `cond` (210-217) whose branches return a heap. -/
def insertV (h : FieldDt) (blk : Dt) : Option FieldDt := do
  let rest := mergeV h.store blk
  let merged := mergeV rest h.buffer
  let h1 : FieldDt := { h with buffer := merged }
  let h2 ← heapifyV h1 merged
  if h2 = h1 then some h1 else none

/-- All fields: the dtypes of the queue after `insert`, `none` if it raises. -/
def insertFields (h : Inst FieldDt) (blk : Inst Dt) : Option (Inst FieldDt) := (zip h blk).bind (treeMapM fun q => insertV q.1 q.2)

/-- dtypes of `_bgpq_build_jit` (bgpq.py:44-51): both are default instances of the class. -/
def buildFields (D : Inst Dt) : Inst FieldDt := treeMap (fun d => ⟨d, d⟩) D

variable {K : Type u} [KeyInf K] {K' : Type w} [KeyLE K'] {V V' : Type}

/-- Values of `_bgpq_insert_jit` (_insert.py:195-221) for keys and values of other dtypes that the trace accepts: the block is sorted by its keys as given (line
196), then the first merge converts keys (`conv`) and values (`cv`) to the dtypes of the queue. -/
def insertMixed (conv : K' → K) (cv : V' → V) (h : Heap K V) (block : List (K' × V')) : Heap K V :=
  let block := (sortKeyVal block).map fun p => (conv p.1, cv p.2)
  let (root, block) := mergeSplit (rowAt h.rows 0) block
  let h := { h with rows := h.rows.set 0 root }
  let (h, block, overflow) := mergeBuffer h block
  let (h, added) := if overflow then insertHeapify h block else (h, false)
  { h with heapSize := h.heapSize + (if added then 1 else 0) }

/-- Queues reachable when every insert has its own key type (with an order-preserving conversion) and value type. -/
inductive MixReachable (total batch : Nat) (dflt : V) : Heap K V → Prop
  | build : MixReachable total batch dflt (Bgpq.build total batch dflt)
  | insert {K' : Type w} [KeyLE K'] {V' : Type} {conv : K' → K} {cv : V' → V} {h : Heap K V} {block : List (K' × V')} :
      Monotone' conv → MixReachable total batch dflt h → block.length = batch → MixReachable total batch dflt (insertMixed conv cv h block)
  | delete {h h' r} : MixReachable total batch dflt h → deleteMins h = some (h', r) → MixReachable total batch dflt h'

/-! ## Which inserts raise -/

theorem insertV_eq (d e : Dt) : insertV ⟨d, d⟩ e = if d.promote e = d then some ⟨d, d⟩ else none := by cases d <;> cases e <;> rfl

/-- **`BGPQ.insert` accepts exactly the values whose fields promote to the dtypes of the class**, and then the dtypes of the queue stay what they are. -/
theorem value_dtypes_accepted {D E : Inst Dt} {P : Inst (Dt × Dt)} (hz : zip D E = some P) :
    insertFields (buildFields D) E = if ∀ q ∈ leaves P, q.1.promote q.2 = q.1 then some (buildFields D) else none := by
  have h1 : zip (buildFields D) E = some (treeMap (fun q => (⟨q.1, q.1⟩, q.2)) P) := by
    have := zip_treeMap (fun d : Dt => (⟨d, d⟩ : FieldDt)) (fun e : Dt => e) D E
    rw [treeMap_id fun _ _ => rfl, hz] at this
    exact this
  unfold insertFields
  rw [h1, Option.bind_some, SoA.treeMapM_treeMap]
  simp only [insertV_eq]
  by_cases h : ∀ q ∈ leaves P, q.1.promote q.2 = q.1
  · rw [if_pos h, treeMapM_some (g := fun q : Dt × Dt => (⟨q.1, q.1⟩ : FieldDt)) fun q hq => if_pos (h q hq)]
    unfold buildFields
    rw [← (zip_proj hz).1, treeMap_comp]
  · rw [if_neg h]
    simp only [Classical.not_forall] at h
    obtain ⟨q, hq, hn⟩ := h
    exact treeMapM_none hq (if_neg hn)

/-- An insert that is accepted converts without going through another dtype (`Dt.promote d e = d`), and the accepted cases are those in which no field of the class
is narrower or an integer given floats. -/
theorem accepted_not_lossy {d e : Dt} (h : d.promote e = d) : ¬ Lossy d e := by
  revert h; cases d <;> cases e <;> decide

/-! ## What an accepted insert stores -/

theorem insertMixed_eq (conv : K' → K) (cv : V' → V) (h : Heap K V) (block : List (K' × V')) :
    insertMixed conv cv h block = insertConv conv h (block.map (pmap cv)) := by
  have hs : sortKeyVal (block.map (pmap cv)) = (sortKeyVal block).map (pmap cv) :=
    Jax.stableSort_map (le := keyLE) (le' := keyLE) (f := pmap cv) (fun _ _ => rfl) block
  unfold insertMixed insertConv
  rw [hs, List.map_map]
  rfl

theorem MixReachable.conv {total batch : Nat} {dflt : V} {h : Heap K V} (hr : MixReachable.{u, w} total batch dflt h) :
    ConvReachable.{u, w, 0} total batch dflt h := by
  induction hr with
  | build => exact .build
  | insert hm _ hl ih =>
    rw [insertMixed_eq]
    exact .insert hm ih (by rw [List.length_map]; exact hl)
  | delete _ hd ih => exact .delete ih hd

/-- **Values of other dtypes in a queue**: with room, an insert stores exactly the pairs whose converted key is finite, with their converted values, and nothing else
changes; `delete_mins` returns the smallest. -/
theorem mixed_values_stored {total batch : Nat} (ht : 0 < total) (hb : 0 < batch) {dflt : V}
    (hcap : (Bgpq.build total batch dflt : Heap K V).maxSize + batch ≤ 2 ^ 32) {h : Heap K V} (hr : MixReachable.{u, w} total batch dflt h) :
    h.size = (contents h).length ∧
    (∀ (conv : K' → K) (cv : V' → V) (block : List (K' × V')), Monotone' conv → block.length = batch →
      (contents h).length + (items (block.map fun p => (conv p.1, cv p.2))).length < h.maxSize + batch →
      (contents (insertMixed conv cv h block)).Perm (contents h ++ items (block.map fun p => (conv p.1, cv p.2)))) ∧
    ∃ h' r, deleteMins h = some (h', r) ∧ r.length = batch ∧ SortedKeys r ∧ (items r ++ contents h').Perm (contents h) ∧
      ∀ x ∈ r, ∀ y ∈ contents h', KeyCmp.le x.1 y.1 = true := by
  obtain ⟨h1, h2, h3⟩ := converted_keys_stored (K' := K') ht hb hcap hr.conv
  refine ⟨h1, fun conv cv block hm hl hroom => ?_, h3⟩
  have := h2 conv (block.map (pmap cv)) hm (by rw [List.length_map]; exact hl)
  rw [List.map_map] at this
  rw [insertMixed_eq]
  exact this hroom

/-! ## Examples -/

/-- A class with an `int32` and a nested `float32`: a batch with `uint8` and `float16` is accepted, one with `float32` for the `int32` raises; the stack would have
taken it. -/
example : let D : Inst Dt := .leaf "a" .i32 (.nested "p" (.leaf "b" .f32 .nil) .nil)
    insertFields (buildFields D) (.leaf "a" .u8 (.nested "p" (.leaf "b" .f16 .nil) .nil)) = some (buildFields D) ∧
    insertFields (buildFields D) (.leaf "a" .f32 (.nested "p" (.leaf "b" .f32 .nil) .nil)) = none := ⟨rfl, rfl⟩

/-- Narrower classes raise too where a stack converts: `int32` values for a `uint8` field. -/
example : insertFields (buildFields (.leaf "a" .u8 .nil)) (.leaf "a" .i32 .nil) = none ∧ ¬ Lossy .u8 .i32 := ⟨rfl, by decide⟩

/-- Pairs of keys and values of other types go in, converted pairs come out. -/
example : (contents (insertMixed (K := Option Nat) some (fun v : Bool => if v then 1 else 0) (Bgpq.build 4 2 0) [(7, true), (3, false)])).Perm
    [(some 3, 0), (some 7, 1)] := by decide +kernel

example : MixReachable.{0, 0} (K := Option Nat) 4 2 (0 : Nat) (insertMixed (K := Option Nat) some (fun v : Bool => if v then 1 else 0) (Bgpq.build 4 2 0) [(7, true), (3, false)]) :=
  .insert (K' := Nat) (fun a b h => h) .build rfl

end StoreTypes
