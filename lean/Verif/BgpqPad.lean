import Verif.BgpqOrder

/-!
# C66: what the padding of `delete_mins` is

docs/bgpq.md: "If the queue contains fewer than `batch_size` items, the returned arrays will be padded (keys with
`jnp.inf`, values with their defaults)".
-/

namespace Bgpq

open MergeModel BgpqSpec

variable {K : Type u} [KeyInf K] {V : Type v}

/-- Every stored pair, padding included, satisfies `P`. -/
structure All (P : K × V → Prop) (h : Heap K V) : Prop where
  rows : ∀ r ∈ h.rows, ∀ p ∈ r, P p
  buffer : ∀ p ∈ h.buffer, P p

theorem rowAt_all {P : K × V → Prop} {rows : List (List (K × V))} (h : ∀ r ∈ rows, ∀ p ∈ r, P p) (i : Nat) :
    ∀ p ∈ rowAt rows i, P p := by
  intro p hp
  unfold rowAt Jax.gatherU at hp
  cases hg : rows[Jax.clampIdx rows.length i]? with
  | none => rw [hg] at hp; simp at hp
  | some r => rw [hg] at hp; exact h r (List.mem_of_getElem? hg) p hp

theorem sort_all {P : K × V → Prop} {l : List (K × V)} (h : ∀ p ∈ l, P p) : ∀ p ∈ sortKeyVal l, P p :=
  fun p hp => h p ((sortKeyVal_perm l).mem_iff.1 hp)

theorem append_all {P : K × V → Prop} {a b : List (K × V)} (ha : ∀ p ∈ a, P p) (hb : ∀ p ∈ b, P p) :
    ∀ p ∈ a ++ b, P p := fun p hp => (List.mem_append.1 hp).elim (ha p) (hb p)

theorem mergeSplit_all {P : K × V → Prop} {a b : List (K × V)} (ha : ∀ p ∈ a, P p) (hb : ∀ p ∈ b, P p) :
    (∀ p ∈ (mergeSplit a b).1, P p) ∧ (∀ p ∈ (mergeSplit a b).2, P p) :=
  ⟨fun p hp => sort_all (append_all ha hb) p (List.mem_of_mem_take hp),
   fun p hp => sort_all (append_all ha hb) p (List.mem_of_mem_drop hp)⟩

theorem set_all {P : K × V → Prop} {rows : List (List (K × V))} {r : List (K × V)} (h : ∀ r ∈ rows, ∀ p ∈ r, P p)
    (hr : ∀ p ∈ r, P p) (i : Nat) : ∀ s ∈ rows.set i r, ∀ p ∈ s, P p := by
  intro s hs
  rcases List.mem_or_eq_of_mem_set hs with h1 | h1
  · exact h s h1
  · subst h1; exact hr

theorem scatter_all {P : K × V → Prop} (upd : List (Nat × List (K × V))) {rows : List (List (K × V))}
    (h : ∀ r ∈ rows, ∀ p ∈ r, P p) (hu : ∀ u ∈ upd, ∀ p ∈ u.2, P p) : ∀ r ∈ scatterRows rows upd, ∀ p ∈ r, P p := by
  induction upd generalizing rows with
  | nil => exact h
  | cons u upd ih =>
    unfold scatterRows
    rw [List.foldl_cons]
    refine ih ?_ fun v hv => hu v (by simp [hv])
    by_cases hlt : u.1 < rows.length
    · rw [if_pos hlt]; exact set_all h (hu u (by simp)) _
    · rw [if_neg hlt]; exact h

theorem scanPath_all {P : K × V → Prop} (nodes : List (List (K × V) × Bool)) {c : List (K × V)}
    (hn : ∀ n ∈ nodes, ∀ p ∈ n.1, P p) (hc : ∀ p ∈ c, P p) : ∀ r ∈ (scanPath nodes c).1, ∀ p ∈ r, P p := by
  induction nodes generalizing c with
  | nil => intro r hr; cases hr
  | cons n nodes ih =>
    obtain ⟨n, b⟩ := n
    have hn0 := hn (n, b) (by simp)
    obtain ⟨m1, m2⟩ := mergeSplit_all hn0 hc
    cases b with
    | true =>
      simp only [scanPath, if_true]
      intro r hr
      rcases List.mem_cons.1 hr with rfl | hr
      · exact m1
      · exact ih (fun m hm => hn m (by simp [hm])) m2 r hr
    | false =>
      simp only [scanPath, Bool.false_eq_true, if_false]
      intro r hr
      rcases List.mem_cons.1 hr with rfl | hr
      · exact hn0
      · exact ih (fun m hm => hn m (by simp [hm])) hc r hr

theorem insertHeapify_all {P : K × V → Prop} {h : Heap K V} {block : List (K × V)} (hh : All P h)
    (hb : ∀ p ∈ block, P p) : All P (insertHeapify h block).1 := by
  unfold insertHeapify
  dsimp only
  generalize (if decide (h.heapSize ≥ h.branchSize - 1) = true then argmaxLast h.rows else h.heapSize + 1) = last
  by_cases hv : decide (last < h.branchSize) = true
  · rw [if_pos hv]
    by_cases h0 : last = 0
    · rw [if_pos h0]
      exact ⟨set_all hh.rows (mergeSplit_all (rowAt_all hh.rows 0) hb).1 0, hh.buffer⟩
    · rw [if_neg h0]
      refine ⟨scatter_all _ hh.rows ?_, hh.buffer⟩
      intro u hu p hp
      unfold insertUpdates at hu
      dsimp only at hu
      have := (List.of_mem_zip (a := u.1) (b := u.2) hu).2
      refine scanPath_all _ ?_ hb u.2 this p hp
      intro n hn
      obtain ⟨m, _, rfl⟩ := List.mem_map.1 hn
      exact rowAt_all hh.rows _
  · rw [if_neg hv]; exact hh

/-- `insert` only moves pairs around: no pair appears that was not stored or inserted. -/
theorem insert_all {P : K × V → Prop} {h : Heap K V} {block : List (K × V)} (hh : All P h)
    (hb : ∀ p ∈ block, P p) : All P (insert h block) := by
  obtain ⟨m1, m2⟩ := mergeSplit_all (rowAt_all hh.rows 0) (sort_all hb)
  have hs := sort_all (append_all m2 hh.buffer)
  have hh1 : All P (mergeBuffer { h with rows := h.rows.set 0 (mergeSplit (rowAt h.rows 0) (sortKeyVal block)).1 }
      (mergeSplit (rowAt h.rows 0) (sortKeyVal block)).2).1 ∧
      ∀ p ∈ (mergeBuffer { h with rows := h.rows.set 0 (mergeSplit (rowAt h.rows 0) (sortKeyVal block)).1 }
      (mergeSplit (rowAt h.rows 0) (sortKeyVal block)).2).2.1, P p := by
    unfold mergeBuffer
    dsimp only
    split
    · exact ⟨⟨set_all hh.rows m1 0, fun p hp => hs p (List.mem_of_mem_drop hp)⟩, fun p hp => hs p (List.mem_of_mem_take hp)⟩
    · exact ⟨⟨set_all hh.rows m1 0, fun p hp => hs p (List.mem_of_mem_take hp)⟩, fun p hp => hs p (List.mem_of_mem_drop hp)⟩
  unfold insert
  dsimp only
  generalize hm : mergeBuffer { h with rows := h.rows.set 0 (mergeSplit (rowAt h.rows 0) (sortKeyVal block)).1 }
      (mergeSplit (rowAt h.rows 0) (sortKeyVal block)).2 = mb at hh1 ⊢
  obtain ⟨g, blk, ov⟩ := mb
  cases ov with
  | true =>
    simp only [if_true]
    have := insertHeapify_all hh1.1 hh1.2
    exact ⟨this.rows, this.buffer⟩
  | false =>
    simp only [Bool.false_eq_true, if_false]
    exact ⟨hh1.1.rows, hh1.1.buffer⟩

theorem siftLoop_all {P : K × V → Prop} {rows : List (List (K × V))} (hr : ∀ r ∈ rows, ∀ p ∈ r, P p) (fuel cur : Nat)
    {keys : List (K × V)} {upd : List (Nat × List (K × V))} (hk : ∀ p ∈ keys, P p) (hu : ∀ u ∈ upd, ∀ p ∈ u.2, P p)
    {cur' : Nat} {keys' : List (K × V)} {upd' : List (Nat × List (K × V))}
    (h : siftLoop rows fuel cur keys upd = some (cur', keys', upd')) :
    (∀ p ∈ keys', P p) ∧ ∀ u ∈ upd', ∀ p ∈ u.2, P p := by
  induction fuel generalizing cur keys upd with
  | zero => cases h
  | succ fuel ih =>
    unfold siftLoop at h
    dsimp only at h
    generalize (if KeyCmp.le (firstKey (rowAt rows (cur * 2 + 1))) (firstKey (rowAt rows (cur * 2 + 2))) = true then
      firstKey (rowAt rows (cur * 2 + 1)) else firstKey (rowAt rows (cur * 2 + 2))) = mlr at h
    by_cases hc : KeyCmp.le (lastKey keys) mlr = true
    · rw [if_pos hc] at h
      cases h
      exact ⟨hk, hu⟩
    · rw [if_neg hc] at h
      obtain ⟨a1, a2⟩ := mergeSplit_all (rowAt_all hr (cur * 2 + 1)) (rowAt_all hr (cur * 2 + 2))
      obtain ⟨b1, b2⟩ := mergeSplit_all hk a1
      refine ih _ b2 ?_ h
      intro u hu'
      rcases List.mem_append.1 hu' with h1 | h1
      · exact hu u h1
      · simp only [List.mem_cons, List.not_mem_nil, or_false] at h1
        rcases h1 with rfl | rfl
        · exact b1
        · exact a2

/-- `delete_mins` only moves pairs around and overwrites keys by `inf`. -/
theorem deleteMins_all {P : K × V → Prop} {h h' : Heap K V} {r : List (K × V)} (hh : All P h)
    (hP : ∀ k v, P (k, v) → P (KeyPad.inf, v)) (hd : deleteMins h = some (h', r)) :
    (∀ p ∈ r, P p) ∧ All P h' := by
  have hclear : ∀ l : List (K × V), (∀ p ∈ l, P p) → ∀ p ∈ l.map fun p => (KeyPad.inf, p.2), P p := by
    intro l hl p hp
    obtain ⟨q, hq, rfl⟩ := List.mem_map.1 hp
    exact hP q.1 q.2 (hl q hq)
  unfold deleteMins at hd
  dsimp only at hd
  by_cases h0 : h.heapSize = 0
  · rw [if_pos h0] at hd
    simp only [Option.some.injEq, Prod.mk.injEq] at hd
    obtain ⟨rfl, rfl⟩ := hd
    obtain ⟨m1, m2⟩ := mergeSplit_all (hclear _ (rowAt_all hh.rows 0)) hh.buffer
    exact ⟨rowAt_all hh.rows 0, set_all hh.rows m1 0, m2⟩
  · rw [if_neg h0] at hd
    cases hdh : deleteHeapify h with
    | none => rw [hdh] at hd; cases hd
    | some g =>
      rw [hdh] at hd
      simp only [Option.map_some, Option.some.injEq, Prod.mk.injEq] at hd
      obtain ⟨rfl, rfl⟩ := hd
      refine ⟨rowAt_all hh.rows 0, ?_⟩
      unfold deleteHeapify at hdh
      dsimp only at hdh
      obtain ⟨m1, m2⟩ := mergeSplit_all (rowAt_all hh.rows h.heapSize) hh.buffer
      have hrows := set_all (set_all hh.rows (hclear _ (rowAt_all hh.rows h.heapSize)) h.heapSize) m1 0
      generalize (h.rows.set h.heapSize ((rowAt h.rows h.heapSize).map fun p => (KeyPad.inf, p.2))).set 0
        (mergeSplit (rowAt h.rows h.heapSize) h.buffer).1 = rows at hdh hrows
      cases hu : deleteUpdates h.branchSize rows (mergeSplit (rowAt h.rows h.heapSize) h.buffer).1 with
      | none => rw [hu] at hdh; cases hdh
      | some upd =>
        rw [hu] at hdh
        simp only [Option.map_some, Option.some.injEq] at hdh
        subst hdh
        refine ⟨scatter_all _ hrows ?_, m2⟩
        unfold deleteUpdates at hu
        cases hl : siftLoop rows (maxDepth h.branchSize) 0 (mergeSplit (rowAt h.rows h.heapSize) h.buffer).1 [] with
        | none => rw [hl] at hu; cases hu
        | some t =>
          obtain ⟨c', k', u'⟩ := t
          rw [hl] at hu
          simp only [Option.map_some, Option.some.injEq] at hu
          subst hu
          obtain ⟨s1, s2⟩ := siftLoop_all hrows _ _ m1 (by intro u hu; cases hu) hl
          intro u hu
          rcases List.mem_append.1 (List.mem_of_mem_take hu) with h1 | h1
          · exact s2 u h1
          · simp only [List.mem_singleton] at h1
            subst h1; exact s1

theorem build_all {P : K × V → Prop} (total batch : Nat) {dflt : V} (h : P (KeyPad.inf, dflt)) :
    All P (build total batch dflt : Heap K V) := by
  refine ⟨?_, ?_⟩
  · intro r hr p hp
    have e : r = List.replicate batch (KeyPad.inf, dflt) := List.eq_of_mem_replicate hr
    rw [e] at hp
    rw [List.eq_of_mem_replicate hp]; exact h
  · intro p hp
    have e : p = (KeyPad.inf, dflt) := List.eq_of_mem_replicate hp
    rw [e]; exact h

/-- The values a history inserted. -/
def insertedValues : List (Op K V) → List V
  | [] => []
  | .insert b :: ops => b.map Prod.snd ++ insertedValues ops
  | .deleteMins :: ops => insertedValues ops

theorem run_all {P : K × V → Prop} (hP : ∀ k v, P (k, v) → P (KeyPad.inf, v)) (ops : List (Op K V)) {h h' : Heap K V}
    {outs : List (Out K V)} (hh : All P h) (hb : ∀ b, Op.insert b ∈ ops → ∀ p ∈ b, P p)
    (hr : run h ops = some (h', outs)) : All P h' ∧ ∀ o ∈ outs, ∀ r, o.ret = some r → ∀ p ∈ r, P p := by
  induction ops generalizing h outs with
  | nil =>
    simp only [run, Option.some.injEq, Prod.mk.injEq] at hr
    obtain ⟨rfl, rfl⟩ := hr
    exact ⟨hh, by intro o ho; cases ho⟩
  | cons op ops ih =>
    unfold run at hr
    cases hs : step h op with
    | none => rw [hs] at hr; cases hr
    | some t =>
      obtain ⟨g, o⟩ := t
      rw [hs, Option.bind_some] at hr
      cases hr' : run g ops with
      | none => dsimp only at hr; rw [hr'] at hr; cases hr
      | some t =>
        obtain ⟨g', outs'⟩ := t
        dsimp only at hr
        rw [hr'] at hr
        simp only [Option.map_some, Option.some.injEq, Prod.mk.injEq] at hr
        obtain ⟨rfl, rfl⟩ := hr
        have key : All P g ∧ ∀ r, o.ret = some r → ∀ p ∈ r, P p := by
          cases op with
          | insert b =>
            simp only [step, Option.some.injEq, Prod.mk.injEq] at hs
            obtain ⟨rfl, rfl⟩ := hs
            exact ⟨insert_all hh (hb b (by simp)), by intro r hr; cases hr⟩
          | deleteMins =>
            unfold step at hs
            cases hd : deleteMins h with
            | none => rw [hd] at hs; cases hs
            | some t =>
              obtain ⟨g2, r⟩ := t
              rw [hd] at hs
              simp only [Option.map_some, Option.some.injEq, Prod.mk.injEq] at hs
              obtain ⟨rfl, rfl⟩ := hs
              obtain ⟨d1, d2⟩ := deleteMins_all hh hP hd
              exact ⟨d2, by intro r' hr'; cases hr'; exact d1⟩
        obtain ⟨i1, i2⟩ := ih key.1 (fun b hb' => hb b (by simp [hb'])) hr'
        refine ⟨i1, ?_⟩
        intro o' ho'
        rcases List.mem_cons.1 ho' with rfl | ho'
        · exact key.2
        · exact i2 o' ho'

omit [KeyInf K] in
theorem mem_insertedValues {ops : List (Op K V)} {b : List (K × V)} (hb : Op.insert b ∈ ops) {p : K × V} (hp : p ∈ b) :
    p.2 ∈ insertedValues ops := by
  induction ops with
  | nil => cases hb
  | cons op ops ih =>
    rcases List.mem_cons.1 hb with h | h
    · subst h
      exact List.mem_append_left _ (List.mem_map_of_mem hp)
    · cases op with
      | insert c => exact List.mem_append_right _ (ih h)
      | deleteMins => exact ih h

/-- **C66 (1): no invented values.**  After every history, every value in the batch `delete_mins` returns, padding included, is
the default value or was inserted earlier in the history. -/
theorem returned_values_known (total batch : Nat) (dflt : V) (ops : List (Op K V)) {h h' : Heap K V} {outs : List (Out K V)}
    {r : List (K × V)} (hr : run (build total batch dflt) ops = some (h, outs)) (hd : deleteMins h = some (h', r)) :
    ∀ p ∈ r, p.2 = dflt ∨ p.2 ∈ insertedValues ops :=
  (deleteMins_all (P := fun p : K × V => p.2 = dflt ∨ p.2 ∈ insertedValues ops)
    (run_all (fun _ _ h => h) ops (build_all total batch (Or.inl rfl))
      (fun _ hb _ hp => Or.inr (mem_insertedValues hb hp)) hr).1 (fun _ _ h => h) hd).1

/-- **C66 (2): how much padding.**  The returned batch is `min(batch_size, size)` items with finite keys followed by padding
with infinite keys. -/
theorem padding_keys {total batch : Nat} (ht : 0 < total) (hb : 0 < batch) {dflt : V}
    (hcap : (build total batch dflt : Heap K V).maxSize + batch ≤ 2 ^ 32) {h : Heap K V}
    (hr : Reachable total batch dflt h) :
    ∃ h' r, deleteMins h = some (h', r) ∧ r.length = batch ∧
      ∀ (i : Nat) (p : K × V), r[i]? = some p → (KeyPad.isFin p.1 = true ↔ i < h.size) := by
  obtain ⟨i1, i2, i3⟩ := reachable_inv ht hb hcap hr
  obtain ⟨h', r, d1, ⟨_, r', e, s1, s2, s3, s4, s5⟩, _⟩ := delete_step i1 (by rw [i2, i3]; exact hcap)
  simp only [Option.some.injEq] at e
  subst e
  rw [i2] at s1 s5
  refine ⟨h', r, d1, s1, ?_⟩
  have hsz : h.size = (contents h).length := size_contents ht hb hcap hr
  have hlen := s3.length_eq
  rw [List.length_append] at hlen
  -- finite keys form a prefix of length `(items r).length`
  have hpre : ∀ (l : List (K × V)), SortedKeys l → ∀ (i : Nat) (p : K × V), l[i]? = some p →
      (KeyPad.isFin p.1 = true ↔ i < (items l).length) := by
    intro l hl
    induction l with
    | nil => intro i p hp; simp at hp
    | cons a l ih =>
      obtain ⟨o1, o2⟩ := List.pairwise_cons.1 hl
      intro i p hp
      have mono : ∀ q ∈ l, KeyPad.isFin a.1 = false → KeyPad.isFin q.1 = false := by
        intro q hq ha
        rw [KeyInf.isFin_eq] at ha ⊢
        simp only [Bool.not_eq_false'] at ha ⊢
        exact KeyLE.trans _ _ _ ha (o1 q hq)
      cases ha : KeyPad.isFin a.1 with
      | true =>
        have e : items (a :: l) = a :: items l := by unfold items; rw [List.filter_cons_of_pos (by simpa using ha)]
        rw [e, List.length_cons]
        cases i with
        | zero =>
          simp only [List.getElem?_cons_zero, Option.some.injEq] at hp
          subst hp
          exact ⟨fun _ => by omega, fun _ => ha⟩
        | succ i =>
          rw [List.getElem?_cons_succ] at hp
          rw [ih o2 i p hp]; omega
      | false =>
        have e : items (a :: l) = [] := by
          unfold items
          rw [List.filter_eq_nil_iff]
          intro q hq
          rcases List.mem_cons.1 hq with rfl | hq
          · simp [ha]
          · simp [mono q hq ha]
        rw [e]
        refine ⟨fun hf => ?_, fun hf => by simp at hf⟩
        have hm := List.mem_of_getElem? hp
        rcases List.mem_cons.1 hm with rfl | hm
        · rw [ha] at hf; cases hf
        · rw [mono p hm ha] at hf; cases hf
  intro i p hp
  rw [hpre r s2 i p hp]
  have hi : i < batch := by
    rw [← s1]; exact (List.getElem?_eq_some_iff.1 hp).1
  by_cases hlt : (items r).length < batch
  · rw [s5 hlt, List.length_nil] at hlen
    rw [hsz]; omega
  · rw [hsz]
    omega

/-- **C66 (3): default padding before the first deletion.**  As long as nothing was deleted and the inserted batches were padded
by `make_batched` (infinite keys come with the default value), the padding of the first returned batch has default values. -/
theorem padding_values_first_partial (total batch : Nat) (dflt : V) (blocks : List (List (K × V)))
    (hbl : ∀ b ∈ blocks, ∀ p ∈ b, KeyPad.isFin p.1 = false → p.2 = dflt) {h' : Heap K V} {r : List (K × V)}
    (hd : deleteMins (insertAll (build total batch dflt) blocks) = some (h', r)) :
    ∀ p ∈ r, KeyPad.isFin p.1 = false → p.2 = dflt := by
  have hall : ∀ (blocks : List (List (K × V))) (h : Heap K V), (∀ b ∈ blocks, ∀ p ∈ b, KeyPad.isFin p.1 = false → p.2 = dflt) →
      All (fun p : K × V => KeyPad.isFin p.1 = false → p.2 = dflt) h →
      All (fun p : K × V => KeyPad.isFin p.1 = false → p.2 = dflt) (insertAll h blocks) := by
    intro blocks
    induction blocks with
    | nil => intro h _ hh; exact hh
    | cons b blocks ih =>
      intro h hb hh
      exact ih (insert h b) (fun c hc => hb c (by simp [hc])) (insert_all hh (hb b (by simp)))
  have hh := hall blocks (build total batch dflt) hbl (build_all total batch (fun _ => rfl))
  have : r = rowAt (insertAll (build total batch dflt) blocks).rows 0 := by
    unfold deleteMins at hd
    dsimp only at hd
    by_cases h0 : (insertAll (build total batch dflt) blocks).heapSize = 0
    · rw [if_pos h0] at hd
      simp only [Option.some.injEq, Prod.mk.injEq] at hd
      exact hd.2.symm
    · rw [if_neg h0] at hd
      cases hdh : deleteHeapify (insertAll (build total batch dflt) blocks) with
      | none => rw [hdh] at hd; cases hd
      | some g =>
        rw [hdh] at hd
        simp only [Option.map_some, Option.some.injEq, Prod.mk.injEq] at hd
        exact hd.2.symm
  rw [this]
  exact rowAt_all hh.rows 0

/-- The documented claim is false after a deletion: two items are inserted and deleted, and the next (empty) batch carries their
values 10 and 11 as padding, not the default 0. -/
theorem padding_values_false :
    ((deleteMins (insert (build 6 2 0 : Heap (Option Nat) Nat) [(some 1, 10), (some 2, 11)])).bind fun t =>
      (deleteMins t.1).map fun u => (t.1.size, u.2)) = some (0, [(none, 10), (none, 11)]) := by
  decide +kernel

/-- Non-vacuity of `padding_keys` and `padding_values_first_partial`: three items in batches of two. -/
example :
    (deleteMins (insertAll (build 6 4 7 : Heap (Option Nat) Nat) [[(some 5, 1), (none, 7), (some 2, 3), (none, 7)], [(some 1, 4), (none, 7), (none, 7), (none, 7)]])).map
      Prod.snd = some [(some 1, 4), (some 2, 3), (some 5, 1), (none, 7)] := by
  decide +kernel

end Bgpq
