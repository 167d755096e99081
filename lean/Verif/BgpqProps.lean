import Verif.BgpqDeleteTop

/-!
# BGPQ: properties C06–C12
-/

namespace BgpqSpec

variable {K : Type u} [KeyPad K] {V : Type v}

/-- An operation of the public API.  `insert` gets a block of `batch_size` (key, value) pairs. -/
inductive Op (K : Type u) (V : Type v) where
  | insert (block : List (K × V))
  | deleteMins

/-- What a caller observes of one operation: the batch returned by `delete_mins` and `heap.size`
afterwards. -/
structure Out (K : Type u) (V : Type v) where
  ret : Option (List (K × V))
  size : Nat

/-- The pairs with a finite key: the real items of a batch (the rest is padding). -/
def items (l : List (K × V)) : List (K × V) := l.filter (fun p => KeyPad.isFin p.1)

def SortedKeys (l : List (K × V)) : Prop := l.Pairwise (fun x y => KeyCmp.le x.1 y.1 = true)

/-- Specification of one operation of a priority queue with batches of `n` and a nominal capacity of
`cap` items, as a relation between the multiset of items before (`S`) and after (`S'`), both given by
lists up to permutation. -/
def Step (n cap : Nat) (S : List (K × V)) (op : Op K V) (out : Out K V) (S' : List (K × V)) : Prop :=
  out.size = S'.length ∧
  match op with
  | .insert block =>
    out.ret = none ∧
    ∃ dropped : List (K × V), (S' ++ dropped).Perm (S ++ items block) ∧
      -- nothing is dropped while `cap + n - 1` items fit
      (S.length + (items block).length < cap + n → dropped = []) ∧
      -- otherwise one batch at most is dropped, and it is not better than `n` items that stay, which
      -- are the best ones
      dropped.length ≤ n ∧
      (dropped ≠ [] → ∃ best rest : List (K × V), (best ++ rest).Perm S' ∧ best.length = n ∧
        (∀ b ∈ best, ∀ r ∈ rest, KeyCmp.le b.1 r.1 = true) ∧
        (∀ b ∈ best, ∀ d ∈ dropped, KeyCmp.le b.1 d.1 = true)) ∧
      -- at most `n - 1` of the items kept are worse than the worst item dropped
      (dropped ≠ [] → ∃ z ∈ dropped, S'.countP (fun x => !KeyCmp.le x.1 z.1) ≤ n - 1)
  | .deleteMins =>
    ∃ r, out.ret = some r ∧ r.length = n ∧ SortedKeys r ∧ (items r ++ S').Perm S ∧
      (∀ x ∈ r, ∀ y ∈ S', KeyCmp.le x.1 y.1 = true) ∧
      ((items r).length < n → S' = [])

/-- A whole history. -/
inductive Trace (n cap : Nat) : List (K × V) → List (Op K V) → List (Out K V) → List (K × V) → Prop
  | nil (S) : Trace n cap S [] [] S
  | cons {S S₁ S' op ops out outs} : Step n cap S op out S₁ → Trace n cap S₁ ops outs S' →
      Trace n cap S (op :: ops) (out :: outs) S'

end BgpqSpec

namespace Bgpq

open MergeModel BgpqSpec

section

variable {K : Type u} [KeyPad K] {V : Type v}

/-- One API call on the model. -/
def step (h : Heap K V) : Op K V → Option (Heap K V × Out K V)
  | .insert block => some (insert h block, ⟨none, (insert h block).size⟩)
  | .deleteMins => (deleteMins h).map fun (h', mins) => (h', ⟨some mins, h'.size⟩)

def run (h : Heap K V) : List (Op K V) → Option (Heap K V × List (Out K V))
  | [] => some (h, [])
  | op :: ops => (step h op).bind fun (h', out) => (run h' ops).map fun (h'', outs) => (h'', out :: outs)

/-- Blocks passed to `insert` have `batch_size` entries (shape requirement of the API). -/
def WellFormed (n : Nat) : Op K V → Prop
  | .insert block => block.length = n
  | .deleteMins => True

end

variable {K : Type u} [KeyInf K] {V : Type v}

theorem contents_length (h : Heap K V) : (contents h).length = nFinite (allPairs h) := by
  unfold contents nFinite; rw [List.countP_eq_length_filter]

theorem nFinite_le {h : Heap K V} (hi : Inv h) : nFinite (allPairs h) < h.maxSize + h.batchSize := by
  have hs := hi.store
  have hn := hi.npos
  have hlt := hs.hs_lt
  have hbl : nFinite h.buffer ≤ h.buffer.length := List.countP_le_length
  rw [hi.bufLen] at hbl
  rw [nFinite_all hi, hi.bufSize]
  unfold Heap.maxSize
  have h0 : nFinite (R h.rows 0) ≤ (R h.rows 0).length := List.countP_le_length
  rw [hs.rowLen 0 (by omega)] at h0
  split
  · have : 1 * h.batchSize ≤ h.branchSize * h.batchSize := Nat.mul_le_mul_right _ (by omega)
    omega
  · have : (h.heapSize + 1) * h.batchSize ≤ h.branchSize * h.batchSize := Nat.mul_le_mul_right _ (by omega)
    omega

theorem size_eq {h : Heap K V} (hi : Inv h) (hcap : h.maxSize + h.batchSize ≤ 2 ^ 32) :
    h.size = (contents h).length := by
  have hlt := hi.store.hs_lt
  have hlen := hi.store.len
  have hle := nFinite_le hi
  have he := nFinite_all hi
  rw [contents_length]
  unfold Heap.size
  rw [rowAt_of_lt (by omega)]
  split
  · rename_i h0
    rw [if_pos h0] at he
    rw [show ((nFinite (R h.rows 0) : Int) + (h.bufferSize : Int)) =
      ((nFinite (R h.rows 0) + h.bufferSize : Nat) : Int) by simp, Jax.u32_of_lt (by omega), he]
  · rename_i h0
    rw [if_neg h0] at he
    rw [show (((h.heapSize : Int) + 1) * (h.batchSize : Int) + (h.bufferSize : Int)) =
      (((h.heapSize + 1) * h.batchSize + h.bufferSize : Nat) : Int) by simp, Jax.u32_of_lt (by omega), he]

theorem items_eq (l : List (K × V)) : items l = l.filter fin := rfl

theorem countP_items (p : K × V → Bool) (l : List (K × V)) :
    (items l).countP p = l.countP (fun x => p x && fin x) := by
  rw [items_eq, List.countP_filter]

theorem countP_contents (p : K × V → Bool) (h : Heap K V) :
    (contents h).countP p = (allPairs h).countP (fun x => p x && fin x) := by
  unfold contents; rw [List.countP_filter]

/-- One insert, in terms of contents. -/
theorem insert_step {h : Heap K V} (hi : Inv h) (hcap : h.maxSize + h.batchSize ≤ 2 ^ 32)
    {block : List (K × V)} (hb : block.length = h.batchSize) :
    Step h.batchSize h.maxSize (contents h) (.insert block) ⟨none, (insert h block).size⟩
      (contents (insert h block)) ∧ Inv (insert h block) ∧
      (insert h block).branchSize = h.branchSize ∧ (insert h block).batchSize = h.batchSize := by
  obtain ⟨d, d1, d2, d3, d4, d5, d6, d7⟩ := insert_spec hi hb
  have hn := hi.npos
  refine ⟨⟨?_, rfl, items d, ?_, ?_, ?_, ?_, ?_⟩, d2, d3, d4⟩
  · exact size_eq d2 (by unfold Heap.maxSize at *; rw [d3, d4]; exact hcap)
  · apply perm_of_countP
    intro p
    rw [List.countP_append, List.countP_append, countP_contents, countP_contents, countP_items,
      countP_items]
    exact d5 _
  · intro hlt
    rcases d7 with hinf | ⟨g1, g2, _⟩
    · rw [items_eq, List.filter_eq_nil_iff]; intro x hx; simp [hinf x hx]
    · exfalso
      -- all rows are full
      have hdne : d ≠ [] := by intro he; rw [he] at d1; simp at d1; omega
      obtain ⟨y, hy⟩ := List.exists_mem_of_ne_nil _ hdne
      have hrf : RowFull (R (insert h block).rows 0) := fun x hx => fin_of_le (d6 x hx y hy) (g2 y hy)
      have hall := nFinite_all d2
      have hrl := d2.store.rowLen 0 (by rw [d3]; have := hi.store.hs_lt; omega)
      have hge : h.maxSize ≤ nFinite (allPairs (insert h block)) := by
        rw [hall]
        unfold Heap.maxSize
        split
        · rename_i h0
          rw [h0] at g1
          rw [rowFull_iff_count.1 hrf, hrl, d4, ← g1]; omega
        · rw [g1, d4]; omega
      have hc := d5 fin
      have hdc := rowFull_iff_count.1 g2
      rw [contents_length, items_eq, ← List.countP_eq_length_filter] at hlt
      unfold nFinite at *
      omega
  · rw [items_eq]
    exact Nat.le_trans (List.length_filter_le _ _) (by omega)
  · intro hne
    have hex : ∃ y ∈ d, fin y = true := by
      obtain ⟨y, hy⟩ := List.exists_mem_of_ne_nil _ hne
      rw [items_eq, List.mem_filter] at hy
      exact ⟨y, hy⟩
    obtain ⟨y, hy, hyf⟩ := hex
    have hrf : RowFull (R (insert h block).rows 0) := fun x hx => fin_of_le (d6 x hx y hy) hyf
    have hlen := d2.store.len
    have hlt := d2.store.hs_lt
    have hrl := d2.store.rowLen 0 (by omega)
    have hl0 : 0 < (insert h block).rows.length := by omega
    refine ⟨R (insert h block).rows 0, items ((insert h block).rows.tail.flatten ++ (insert h block).buffer),
      ?_, by rw [hrl, d4], ?_, ?_⟩
    · apply perm_of_countP
      intro p
      rw [List.countP_append, countP_items, countP_contents]
      unfold allPairs
      cases hr : (insert h block).rows with
      | nil => rw [hr] at hl0; simp at hl0
      | cons r rs =>
        rw [hr] at hrf
        have e : R (r :: rs) 0 = r := by simp [R]
        rw [e] at hrf ⊢
        simp only [List.tail_cons, List.flatten_cons, List.append_assoc]
        rw [List.countP_append (l₁ := r)]
        congr 1
        apply List.countP_congr
        intro x hx
        simp [hrf x hx]
    · intro b hb' r hr
      rw [items_eq, List.mem_filter] at hr
      rcases List.mem_append.1 hr.1 with h' | h'
      · rw [List.mem_flatten] at h'
        obtain ⟨l, hl, hrl'⟩ := h'
        obtain ⟨i, hi', hli⟩ := List.mem_iff_getElem.1 hl
        rw [List.getElem_tail] at hli
        have hi'' : i + 1 < (insert h block).rows.length := by
          rw [List.length_tail] at hi'; omega
        have e : R (insert h block).rows (i + 1) = l := by
          unfold R; rw [List.getElem?_eq_getElem hi'', ← hli]; rfl
        exact d2.store.shape.root_le d2.npos (i + 1) (by omega) (by omega) b hb' r (by rw [e]; exact hrl')
      · exact d2.bufGe b hb' r h'
    · intro b hb' x hx
      rw [items_eq, List.mem_filter] at hx
      exact d6 b hb' x hx.1
  · intro hne
    rcases d7 with hinf | ⟨_, g2, z, hz, hzmax⟩
    · exfalso; apply hne
      rw [items_eq, List.filter_eq_nil_iff]; intro x hx; simp [hinf x hx]
    · refine ⟨z, by rw [items_eq, List.mem_filter]; exact ⟨hz, g2 z hz⟩, ?_⟩
      rw [countP_contents]
      unfold allPairs
      rw [List.countP_append]
      have h1 : (insert h block).rows.flatten.countP (fun x => (!KeyCmp.le x.1 z.1) && fin x) = 0 := by
        rw [List.countP_eq_zero]; intro x hx; simp [hzmax x hx]
      have h2 : (insert h block).buffer.countP (fun x => (!KeyCmp.le x.1 z.1) && fin x)
          ≤ (insert h block).buffer.length := List.countP_le_length
      rw [d2.bufLen, d4] at h2
      show _ ≤ h.batchSize - 1
      omega

/-- One delete, in terms of contents. -/
theorem delete_step {h : Heap K V} (hi : Inv h) (hcap : h.maxSize + h.batchSize ≤ 2 ^ 32) :
    ∃ h' r, deleteMins h = some (h', r) ∧
      Step h.batchSize h.maxSize (contents h) .deleteMins ⟨some r, h'.size⟩ (contents h') ∧ Inv h' ∧
      h'.branchSize = h.branchSize ∧ h'.batchSize = h.batchSize := by
  obtain ⟨h', d1, d2, d3, d4, d5, d6, d7⟩ := delete_spec hi
  have hlt := hi.store.hs_lt
  refine ⟨h', _, d1, ⟨?_, _, rfl, ?_, ?_, ?_, d6, ?_⟩, d2, d3, d4⟩
  · exact size_eq d2 (by unfold Heap.maxSize at *; rw [d3, d4]; exact hcap)
  · exact hi.store.rowLen 0 (by omega)
  · exact hi.store.sorted 0 (by omega)
  · apply perm_of_countP
    intro p
    rw [List.countP_append, countP_contents, countP_contents, countP_items]
    have := d5 p
    omega
  · intro hlt'
    apply d7
    intro hf
    rw [items_eq, ← List.countP_eq_length_filter, ← nFinite, rowFull_iff_count.1 hf,
      hi.store.rowLen 0 (by omega)] at hlt'
    exact Nat.lt_irrefl _ hlt'

theorem run_refines {h : Heap K V} (hi : Inv h) (hcap : h.maxSize + h.batchSize ≤ 2 ^ 32)
    (ops : List (Op K V)) (hw : ∀ op ∈ ops, WellFormed h.batchSize op) :
    ∃ h' outs, run h ops = some (h', outs) ∧ Inv h' ∧ h'.batchSize = h.batchSize ∧
      h'.branchSize = h.branchSize ∧
      Trace h.batchSize h.maxSize (contents h) ops outs (contents h') := by
  induction ops generalizing h with
  | nil => exact ⟨h, [], rfl, hi, rfl, rfl, .nil _⟩
  | cons op ops ih =>
    cases op with
    | insert block =>
      obtain ⟨s1, s2, s3, s4⟩ := insert_step hi hcap (hw (.insert block) (by simp))
      have hm : (insert h block).maxSize = h.maxSize := by unfold Heap.maxSize; rw [s3, s4]
      obtain ⟨h', outs, r1, r2, r3, r4, r5⟩ := ih s2 (by rw [hm, s4]; exact hcap)
        (fun op hop => by rw [s4]; exact hw op (by simp [hop]))
      refine ⟨h', ⟨none, (insert h block).size⟩ :: outs, by simp [run, step, r1], r2, by omega, by omega, ?_⟩
      rw [s4, hm] at r5
      exact .cons s1 r5
    | deleteMins =>
      obtain ⟨h1, r, d1, s1, s2, s3, s4⟩ := delete_step hi hcap
      have hm : h1.maxSize = h.maxSize := by unfold Heap.maxSize; rw [s3, s4]
      obtain ⟨h', outs, r1, r2, r3, r4, r5⟩ := ih s2 (by rw [hm, s4]; exact hcap)
        (fun op hop => by rw [s4]; exact hw op (by simp [hop]))
      refine ⟨h', ⟨some r, h1.size⟩ :: outs, by simp [run, step, d1, r1], r2, by omega, by omega, ?_⟩
      rw [s4, hm] at r5
      exact .cons s1 r5

theorem contents_build (total batch : Nat) (d : V) : contents (build total batch d : Heap K V) = [] := by
  unfold contents
  rw [List.filter_eq_nil_iff]
  intro x hx
  have : x = ((KeyPad.inf : K), d) := by
    unfold allPairs build at hx
    rcases List.mem_append.1 hx with h | h
    · rw [List.mem_flatten] at h
      obtain ⟨l, hl, hxl⟩ := h
      rw [List.eq_of_mem_replicate hl] at hxl
      exact List.eq_of_mem_replicate hxl
    · exact List.eq_of_mem_replicate h
  have hf : fin x = false := by rw [this, fin_false_iff]; exact KeyLE.refl _
  simp [hf]

/-- **C06, C07, C08, C10.** Every history of `insert` (blocks of `batch_size`) and `delete_mins` on a
freshly built queue completes (in particular the sift-down loop of `delete_mins` always ends) and is a
history of the priority-queue specification `BgpqSpec.Trace`, starting from the empty multiset:
`delete_mins` returns a sorted batch of the smallest items and removes exactly them, `insert` adds
exactly the finite-key pairs while `max_size + batch_size - 1` items fit and otherwise drops at most
one batch, no better than the best `batch_size` items kept; `size` is the number of items. -/
theorem bgpq_refines (total batch : Nat) (ht : 0 < total) (hb : 0 < batch) (dflt : V)
    (hcap : (build total batch dflt : Heap K V).maxSize + batch ≤ 2 ^ 32)
    (ops : List (Op K V)) (hw : ∀ op ∈ ops, WellFormed batch op) :
    ∃ h outs S, run (build total batch dflt : Heap K V) ops = some (h, outs) ∧
      Trace batch (build total batch dflt : Heap K V).maxSize [] ops outs S ∧ h.size = S.length := by
  obtain ⟨h, outs, r1, r2, r3, r4, r5⟩ := run_refines (inv_build total batch hb ht dflt) hcap ops hw
  refine ⟨h, outs, contents h, r1, ?_, ?_⟩
  · rw [contents_build] at r5; exact r5
  · exact size_eq r2 (by
      have e : h.maxSize = (build total batch dflt : Heap K V).maxSize := by
        unfold Heap.maxSize; rw [r3, r4]
      rw [e, r3]; exact hcap)

/-- Heaps reachable from `build` through the API. -/
inductive Reachable (total batch : Nat) (dflt : V) : Heap K V → Prop
  | build : Reachable total batch dflt (build total batch dflt)
  | insert {h block} : Reachable total batch dflt h → block.length = batch →
      Reachable total batch dflt (insert h block)
  | delete {h h' r} : Reachable total batch dflt h → deleteMins h = some (h', r) →
      Reachable total batch dflt h'

theorem reachable_inv {total batch : Nat} (ht : 0 < total) (hb : 0 < batch) {dflt : V}
    (hcap : (build total batch dflt : Heap K V).maxSize + batch ≤ 2 ^ 32) {h : Heap K V}
    (hr : Reachable total batch dflt h) :
    Inv h ∧ h.batchSize = batch ∧ h.maxSize = (build total batch dflt : Heap K V).maxSize := by
  induction hr with
  | build => exact ⟨inv_build total batch hb ht dflt, rfl, rfl⟩
  | @insert h block _ hbl ih =>
    obtain ⟨i1, i2, i3⟩ := ih
    obtain ⟨_, s2, s3, s4⟩ := insert_step i1 (by rw [i2, i3]; exact hcap) (by rw [i2]; exact hbl)
    exact ⟨s2, by omega, by unfold Heap.maxSize at *; rw [s3, s4]; exact i3⟩
  | @delete h h' r _ hd ih =>
    obtain ⟨i1, i2, i3⟩ := ih
    obtain ⟨h1, r', d1, s1, s2, s3, s4⟩ := delete_step i1 (by rw [i2, i3]; exact hcap)
    rw [d1] at hd
    simp only [Option.some.injEq, Prod.mk.injEq] at hd
    obtain ⟨rfl, rfl⟩ := hd
    exact ⟨s2, by omega, by unfold Heap.maxSize at *; rw [s3, s4]; exact i3⟩

/-- **C06.** -/
theorem delete_mins_returns_smallest {total batch : Nat} (ht : 0 < total) (hb : 0 < batch) {dflt : V}
    (hcap : (build total batch dflt : Heap K V).maxSize + batch ≤ 2 ^ 32) {h : Heap K V}
    (hr : Reachable total batch dflt h) :
    ∃ h' r, deleteMins h = some (h', r) ∧ r.length = batch ∧ SortedKeys r ∧
      (∀ x ∈ r, ∀ y ∈ contents h', KeyCmp.le x.1 y.1 = true) ∧
      ((items r).length < batch → contents h' = []) := by
  obtain ⟨i1, i2, i3⟩ := reachable_inv ht hb hcap hr
  obtain ⟨h', r, d1, ⟨_, r', e, s1, s2, _, s4, s5⟩, _⟩ := delete_step i1 (by rw [i2, i3]; exact hcap)
  simp only [Option.some.injEq] at e
  subst e
  rw [i2] at s1 s5
  exact ⟨h', r, d1, s1, s2, s4, s5⟩

/-- **C07.** (`contents h` is the multiset of finite-key pairs stored in root, blocks and buffer.) -/
theorem bgpq_conserves {total batch : Nat} (ht : 0 < total) (hb : 0 < batch) {dflt : V}
    (hcap : (build total batch dflt : Heap K V).maxSize + batch ≤ 2 ^ 32) {h : Heap K V}
    (hr : Reachable total batch dflt h) :
    (∀ block, block.length = batch →
      (contents h).length + (items block).length < h.maxSize + batch →
      (contents (insert h block)).Perm (contents h ++ items block)) ∧
    (∃ h' r, deleteMins h = some (h', r) ∧ (items r ++ contents h').Perm (contents h)) := by
  obtain ⟨i1, i2, i3⟩ := reachable_inv ht hb hcap hr
  constructor
  · intro block hbl hlt
    obtain ⟨⟨_, _, d, s1, s2, _⟩, _⟩ := insert_step i1 (by rw [i2, i3]; exact hcap)
      (by rw [i2]; exact hbl)
    have := s2 (by rw [i2]; exact hlt)
    rw [this, List.append_nil] at s1
    exact s1
  · obtain ⟨h', r, d1, ⟨_, r', e, _, _, s3, _⟩, _⟩ := delete_step i1 (by rw [i2, i3]; exact hcap)
    simp only [Option.some.injEq] at e
    subst e
    exact ⟨h', r, d1, s3⟩

/-- A heap with a free block has room for one more batch in the sense of `bgpq_conserves`. -/
theorem room_of_free_block {total batch : Nat} (ht : 0 < total) (hb : 0 < batch) {dflt : V}
    (hcap : (build total batch dflt : Heap K V).maxSize + batch ≤ 2 ^ 32) {h : Heap K V}
    (hr : Reachable total batch dflt h) (hfree : h.heapSize + 1 < h.branchSize)
    (block : List (K × V)) (hbl : block.length = batch) :
    (contents h).length + (items block).length < h.maxSize + batch := by
  obtain ⟨i1, i2, _⟩ := reachable_inv ht hb hcap hr
  have h1 : (items block).length ≤ batch := by
    rw [items_eq]; exact Nat.le_trans (List.length_filter_le _ _) (by omega)
  rw [contents_length, nFinite_all i1, i1.bufSize]
  have hbl' : nFinite h.buffer ≤ h.buffer.length := List.countP_le_length
  rw [i1.bufLen] at hbl'
  have hrl : nFinite (R h.rows 0) ≤ (R h.rows 0).length := List.countP_le_length
  rw [i1.store.rowLen 0 (by omega)] at hrl
  unfold Heap.maxSize
  have h2 : (h.heapSize + 2) * h.batchSize ≤ h.branchSize * h.batchSize :=
    Nat.mul_le_mul_right _ (by omega)
  have e2 : (h.heapSize + 2) * h.batchSize = (h.heapSize + 1) * h.batchSize + h.batchSize := by
    rw [← Nat.succ_mul]
  have e1 : (h.heapSize + 1) * h.batchSize = h.heapSize * h.batchSize + h.batchSize := Nat.succ_mul _ _
  split <;> omega

/-- **C08.** -/
theorem bgpq_size_correct {total batch : Nat} (ht : 0 < total) (hb : 0 < batch) {dflt : V}
    (hcap : (build total batch dflt : Heap K V).maxSize + batch ≤ 2 ^ 32) {h : Heap K V}
    (hr : Reachable total batch dflt h) :
    h.size = (items (h.rows.flatten ++ h.buffer)).length := by
  obtain ⟨i1, i2, i3⟩ := reachable_inv ht hb hcap hr
  exact size_eq i1 (by rw [i2, i3]; exact hcap)

/-- Repeated `delete_mins` until `size` is 0: the concatenation of the items returned. -/
def drain : Nat → Heap K V → Option (Heap K V × List (K × V))
  | 0, h => some (h, [])
  | fuel + 1, h =>
    if h.size = 0 then some (h, [])
    else (deleteMins h).bind fun (h', r) =>
      (drain fuel h').map fun (h'', out) => (h'', items r ++ out)

theorem drain_spec (fuel : Nat) (h : Heap K V) (hi : Inv h) (hcap : h.maxSize + h.batchSize ≤ 2 ^ 32)
    (hf : (contents h).length ≤ fuel * h.batchSize) :
    ∃ h' out, drain fuel h = some (h', out) ∧ h'.size = 0 ∧ SortedKeys out ∧ out.Perm (contents h) := by
  induction fuel generalizing h with
  | zero =>
    have h0 : (contents h).length = 0 := by omega
    refine ⟨h, [], rfl, by rw [size_eq hi hcap]; exact h0, by simp [SortedKeys], ?_⟩
    rw [List.eq_nil_of_length_eq_zero h0]
  | succ fuel ih =>
    rw [drain]
    by_cases hz : h.size = 0
    · rw [if_pos hz]
      have h0 : (contents h).length = 0 := by rw [← size_eq hi hcap]; exact hz
      refine ⟨h, [], rfl, hz, by simp [SortedKeys], ?_⟩
      rw [List.eq_nil_of_length_eq_zero h0]
    · rw [if_neg hz]
      obtain ⟨h', r, d1, ⟨_, r', e, s1, s2, s3, s4, s5⟩, s6, s7, s8⟩ := delete_step hi hcap
      simp only [Option.some.injEq] at e
      subst e
      have hlen := s3.length_eq
      rw [List.length_append] at hlen
      have hm : h'.maxSize = h.maxSize := by unfold Heap.maxSize; rw [s7, s8]
      obtain ⟨h'', out, q1, q2, q3, q4⟩ := ih h' s6 (by rw [hm, s8]; exact hcap) (by
        rw [s8]
        by_cases hlt : (items r).length < h.batchSize
        · rw [s5 hlt]; simp
        · rw [Nat.succ_mul] at hf
          omega)
      refine ⟨h'', items r ++ out, by simp [d1, q1], q2, ?_, ?_⟩
      · unfold SortedKeys
        rw [List.pairwise_append]
        refine ⟨List.Pairwise.filter _ s2, q3, ?_⟩
        intro x hx y hy
        rw [items_eq, List.mem_filter] at hx
        exact s4 x hx.1 y (q4.mem_iff.1 hy)
      · exact (q4.append_left (items r)).trans s3

/-- **C09.** -/
theorem drain_sorted {total batch : Nat} (ht : 0 < total) (hb : 0 < batch) {dflt : V}
    (hcap : (build total batch dflt : Heap K V).maxSize + batch ≤ 2 ^ 32) {h : Heap K V}
    (hr : Reachable total batch dflt h) :
    -- `ceil(size / batch_size)` calls are enough
    ∃ h' out, drain ((h.size + batch - 1) / batch) h = some (h', out) ∧ h'.size = 0 ∧
      SortedKeys out ∧ out.Perm (contents h) := by
  obtain ⟨i1, i2, i3⟩ := reachable_inv ht hb hcap hr
  have hc : h.maxSize + h.batchSize ≤ 2 ^ 32 := by rw [i2, i3]; exact hcap
  apply drain_spec _ h i1 hc
  rw [← size_eq i1 hc, i2]
  have := Nat.div_add_mod (h.size + batch - 1) batch
  have hm := Nat.mod_lt (h.size + batch - 1) hb
  rw [Nat.mul_comm] at this
  omega

/-- **C10.** -/
theorem overflow_keeps_best {total batch : Nat} (ht : 0 < total) (hb : 0 < batch) {dflt : V}
    (hcap : (build total batch dflt : Heap K V).maxSize + batch ≤ 2 ^ 32) {h : Heap K V}
    (hr : Reachable total batch dflt h) (block : List (K × V)) (hbl : block.length = batch) :
    ∃ dropped, (contents (insert h block) ++ dropped).Perm (contents h ++ items block) ∧
      dropped.length ≤ batch ∧
      (dropped ≠ [] → ∃ best rest : List (K × V), (best ++ rest).Perm (contents (insert h block)) ∧
        best.length = batch ∧ (∀ b ∈ best, ∀ r ∈ rest, KeyCmp.le b.1 r.1 = true) ∧
        (∀ b ∈ best, ∀ d ∈ dropped, KeyCmp.le b.1 d.1 = true)) := by
  obtain ⟨i1, i2, i3⟩ := reachable_inv ht hb hcap hr
  obtain ⟨⟨_, _, d, s1, _, s3, s4, _⟩, _⟩ := insert_step i1 (by rw [i2, i3]; exact hcap)
    (by rw [i2]; exact hbl)
  rw [i2] at s3 s4
  exact ⟨d, s1, s3, s4⟩

/-- **C11**, the part that holds: the worst dropped item is not better than any kept item except at
most `batch_size - 1` of them (the ones in the buffer), and the size exceeds `max_size` by at most
`batch_size - 1`. -/
theorem overflow_drops_worst_partial {total batch : Nat} (ht : 0 < total) (hb : 0 < batch) {dflt : V}
    (hcap : (build total batch dflt : Heap K V).maxSize + batch ≤ 2 ^ 32) {h : Heap K V}
    (hr : Reachable total batch dflt h) (block : List (K × V)) (hbl : block.length = batch) :
    (∃ dropped, (contents (insert h block) ++ dropped).Perm (contents h ++ items block) ∧
      (dropped ≠ [] → ∃ z ∈ dropped,
        (contents (insert h block)).countP (fun x => !KeyCmp.le x.1 z.1) ≤ batch - 1)) ∧
    h.size ≤ h.maxSize + (batch - 1) := by
  obtain ⟨i1, i2, i3⟩ := reachable_inv ht hb hcap hr
  have hc : h.maxSize + h.batchSize ≤ 2 ^ 32 := by rw [i2, i3]; exact hcap
  obtain ⟨⟨_, _, d, s1, _, _, _, s5⟩, _⟩ := insert_step i1 hc (by rw [i2]; exact hbl)
  rw [i2] at s5
  refine ⟨⟨d, s1, s5⟩, ?_⟩
  rw [size_eq i1 hc, contents_length]
  have := nFinite_le i1
  rw [i2] at this
  omega

/-- **C11 is false**: a queue with `total_size = batch_size = 2` that is offered 1, 2, then 5, then 3, 4
keeps 5 and drops 3 and 4; it then holds 3 items although `max_size` is 2. -/
theorem overflow_drops_worst_false :
    let b : Heap (Option Nat) Nat := build 2 2 0
    let h := insert (insert (insert b [(some 1, 1), (some 2, 2)]) [(some 5, 5), (none, 0)])
      [(some 3, 3), (some 4, 4)]
    contents h = [(some 1, 1), (some 2, 2), (some 5, 5)] ∧ h.maxSize = 2 ∧ h.size = 3 := by
  decide +kernel

/-- **C12.** -/
theorem make_batched_pads {total batch : Nat} (ht : 0 < total) (hb : 0 < batch) {dflt : V}
    (hcap : (build total batch dflt : Heap K V).maxSize + batch ≤ 2 ^ 32) (dv : V)
    (l : List (K × V)) (hl : l.length ≤ batch) :
    ∃ block, makeBatched dv batch l = some block ∧ block.length = batch ∧ block.take l.length = l ∧
      (∀ x ∈ block.drop l.length, x = (KeyPad.inf, dv)) ∧
      ∀ h : Heap K V, Reachable total batch dflt h →
        (contents h).length + (items l).length < h.maxSize + batch →
        (contents (insert h block)).Perm (contents h ++ items l) := by
  refine ⟨_, by rw [makeBatched, if_pos hl], ?_, ?_, ?_, ?_⟩
  · simp; omega
  · rw [List.take_left']; rfl
  · intro x hx
    rw [List.drop_left' rfl] at hx
    exact List.eq_of_mem_replicate hx
  · intro h hr hlt
    have hit : items (l ++ List.replicate (batch - l.length) ((KeyPad.inf : K), dv)) = items l := by
      rw [items_eq, items_eq, List.filter_append]
      have : (List.replicate (batch - l.length) ((KeyPad.inf : K), dv)).filter fin = [] := by
        rw [List.filter_eq_nil_iff]
        intro x hx
        have hf : fin x = false := rowInf_replicate _ _ x hx
        rw [hf]; simp
      rw [this, List.append_nil]
    have := (bgpq_conserves ht hb hcap hr).1
      (l ++ List.replicate (batch - l.length) ((KeyPad.inf : K), dv))
      (by rw [List.length_append, List.length_replicate]; omega)
      (by rw [hit]; exact hlt)
    rwa [hit] at this

/-- Non-vacuity: a reachable heap with several blocks and a partly filled buffer; the hypotheses on
sizes hold; a delete returns the two smallest. -/
example :
    let b : Heap (Option Nat) Nat := build 6 2 0
    let h := insert (insert (insert b [(some 9, 1), (some 2, 2)]) [(some 5, 5), (none, 0)])
      [(some 3, 3), (some 4, 4)]
    h.heapSize = 1 ∧ h.bufferSize = 1 ∧ h.maxSize + 2 ≤ 2 ^ 32 ∧
    (deleteMins h).map (fun x => (x.2, contents x.1, x.1.size)) =
      some ([(some 2, 2), (some 3, 3)], [(some 4, 4), (some 5, 5), (some 9, 1)], 3) := by
  decide +kernel

end Bgpq
