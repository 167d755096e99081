import Verif.SoAAxisOps2

/-!
# C52 (gathering, broadcasting, tiling, stacking) and C53 (elementwise operations) for instances
-/

namespace SoA

open Agg NArr

variable {α : Type} [Inhabited α]

/-! ## `take_along_axis` -/

/-- **C52, `take_along_axis`** along a nonempty batch axis `k`, with an index array of rank at most the batch rank; missing axes at the end of the index array count as 1.
The result has the batch shape, with the length of the index array along the axis; record `j` is the record whose position along the axis is the index found at
`j` (axes of length 1 of the index array are repeated); negative indices count from the end; an index outside `-n … n-1` gives a record all of whose
entries are the fill value `oob` of JAX. -/
theorem take_along_axis_records {b si : List Nat} {c : Cls α} {x : Tree α} {oob : α} {inds : NArr Int} {k : Nat} (h : Conf b c x) (hk : k < b.length)
    (h0 : 0 < b.getD k 0) (hr : inds.shape.length ≤ b.length) (hsi : si = inds.shape ++ List.replicate (b.length - inds.shape.length) 1)
    (hb : ∀ i, i < b.length → i ≠ k → si.getD i 0 = b.getD i 0 ∨ si.getD i 0 = 1) :
    ∃ z, takeAlongAxis oob x inds (k : Int) = some z ∧ Conf (b.set k (si.getD k 0)) c z ∧
      ∀ j, InB (b.set k (si.getD k 0)) j → ∀ i, i = inds.get (List.zipWith (fun d q => if d = 1 then 0 else q) inds.shape j) →
        (-(b.getD k 0 : Int) ≤ i → i < b.getD k 0 → item j z = item (j.set k (if i < 0 then (i + b.getD k 0).toNat else i.toNat)) x) ∧
        (i < -(b.getD k 0 : Int) ∨ (b.getD k 0 : Int) ≤ i → Conf [] c (item j z) ∧ AllEntries oob (item j z)) := by
  have hsil : si.length = b.length := by rw [hsi]; simp; omega
  have hB : Bcast si (b.set k (si.getD k 0)) := by
    rw [Bcast.iff]
    refine ⟨by simp; omega, fun i hi => ?_⟩
    rw [List.length_set, hsil, Nat.sub_self, Nat.zero_add]
    by_cases hik : i = k
    · subst hik; left; rw [getD_set_eq hk]
    · rw [getD_set_ne' (Ne.symm hik)]
      exact hb i (by omega) hik
  obtain ⟨z, hz, hzc⟩ := mapM_spec (f := takeAlongLeaf oob inds (k : Int)) (b' := b.set k (si.getD k 0)) h fun r a ha hs => by
    obtain ⟨z, h1, h2, h3, _⟩ := takeAlong_spec (oob := oob) hs hk hr hsi hB
    exact ⟨z, h1, h2, h3⟩
  refine ⟨z, hz, hzc, fun j hj i hi => ⟨fun h1 h2 => mapM_item h hz fun r a w ha hs hw => ?_, fun ho =>
    ⟨item_conf (b' := []) (by rw [List.append_nil]; exact hzc) hj, ?_⟩⟩⟩
  · obtain ⟨z', g1, _, _, g4⟩ := takeAlong_spec (oob := oob) hs hk hr hsi hB
    rw [g1] at hw
    cases hw
    refine (g4 j hj).1 _ ?_ ?_
    · by_cases hneg : i < 0
      · rw [if_pos hneg]; omega
      · rw [if_neg hneg]; omega
    · rw [← hi]
      unfold wrapIdx
      by_cases hneg : i < 0
      · rw [if_pos hneg, if_pos hneg]; omega
      · rw [if_neg hneg, if_neg hneg]; omega
  · have e : item j z = fillWith oob (item (j.set k 0) x) := by
      unfold item fillWith
      rw [treeMap_comp]
      refine treeMapM_map hz fun a ha w hw => ?_
      obtain ⟨ha1, r, ha2⟩ := conf_leaves h a ha
      obtain ⟨z', g1, _, _, g4⟩ := takeAlong_spec (oob := oob) ha2 hk hr hsi hB
      rw [g1] at hw
      cases hw
      rw [(g4 j hj).2 (by
        rw [← hi]
        unfold wrapIdx
        by_cases hneg : i < 0
        · rw [if_pos hneg]; omega
        · rw [if_neg hneg]; omega)]
      rw [sub_eq ha2 (inB_set_axis hj h0)]
      rfl
    rw [e]
    exact fillWith_entries _ _

/-! ## `broadcast_to`, `tile`, `broadcast_arrays` -/

/-- Every field has the intrinsic shape `r` (in particular: a class with scalar fields only, or with one field). -/
def SameIntrinsic (r : List Nat) (c : Cls α) (x : Tree α) : Prop := ConfP (fun r' (_ : NArr α) => r' = r) [] c x

/-- **C52, `broadcast_to`**, for classes all of whose fields have the same intrinsic shape `r`: the argument names the full shape `t ++ r`, and record `j` of the
result is the record it is broadcast from.  (The same shape is requested for every field, so other classes cannot be broadcast: `broadcast_to_mixed`.) -/
theorem broadcast_to_records_partial {b t r : List Nat} {c : Cls α} {x : Tree α} (h : Conf b c x) (hr : SameIntrinsic r c x) (hb : Bcast b t) :
    ∃ z, broadcastTo x (t ++ r) = some z ∧ Conf t c z ∧ ∀ j, InB t j → item j z = item (bcastSrc b j) x := by
  have hR : Rearranges (α := α) (fun r' => r' = r) b t (bcastSrc b) fun a => NArr.broadcastTo a (t ++ r) := by
    intro r' a hr' ha hs
    subst hr'
    obtain ⟨w, h1, h2, h3, h4⟩ := broadcastTo_rows hs hb
    exact ⟨w, h1, h2, h3, fun j hj => ⟨bcastSrc_inB hb hj, h4 j hj⟩⟩
  obtain ⟨z, h1, h2, h3⟩ := rearranges_inst hR ⟨r, rfl⟩ h hr
  exact ⟨z, h1, h2, fun j hj => (h3 j hj).2⟩

/-- **C52, `tile`**, for classes all of whose fields have the intrinsic rank `m`, the repetitions of the `m` intrinsic axes being given as ones: the batch is
repeated as numpy tiles an array of records. -/
theorem tile_records_partial {b reps : List Nat} {m : Nat} {c : Cls α} {x : Tree α} (h : Conf b c x) (hr : IntrinsicRank m c x) :
    Conf (tileShape b reps) c (tile x (reps ++ List.replicate m 1)) ∧
      ∀ j, InB (tileShape b reps) j → InB b (tileSrc b reps j) ∧ item j (tile x (reps ++ List.replicate m 1)) = item (tileSrc b reps j) x := by
  obtain ⟨z, h1, h2, h3⟩ := rearranges_inst (tile_rearranges m b reps) ⟨List.replicate m 1, by simp⟩ h hr
  have : tile x (reps ++ List.replicate m 1) = z := by
    rw [treeMapM_some (g := fun a : NArr α => a.tile (reps ++ List.replicate m 1)) fun _ _ => rfl, Option.some.injEq] at h1
    exact h1
  rw [this]
  exact ⟨h2, h3⟩

/-- Tiling a batch of one axis: record `j` is record `j` modulo the batch length. -/
theorem tile_line {n k m : Nat} {c : Cls α} {x : Tree α} (h : Conf [n] c x) (hr : IntrinsicRank m c x) :
    Conf [n * k] c (tile x (k :: List.replicate m 1)) ∧ ∀ j, j < n * k → item [j] (tile x (k :: List.replicate m 1)) = item [j % n] x := by
  obtain ⟨h1, h2⟩ := tile_records_partial (reps := [k]) h hr
  refine ⟨by simpa [tileShape] using h1, fun j hj => ?_⟩
  exact (h2 [j] ⟨hj, trivial⟩).2

theorem getElem?_map_iff {β γ : Type} {f : β → γ} {l : List β} {k : Nat} {y : γ} (h : (l.map f)[k]? = some y) : ∃ x, l[k]? = some x ∧ f x = y := by
  rw [List.getElem?_map] at h
  cases hk : l[k]? with
  | none => rw [hk] at h; cases h
  | some x => rw [hk] at h; exact ⟨x, rfl, by simpa using h⟩

/-- **C52, `broadcast_arrays`**: instances of one class whose batch shapes broadcast to `u`: every result has batch shape `u`, and its record `j` is the record
it is broadcast from. -/
theorem broadcast_arrays_records {bs : List (List Nat)} {u : List Nat} {c : Cls α} {xs : List (Tree α)} (h : Confs bs c xs) (hu : bcastAll bs = some u)
    (hx : xs ≠ []) :
    ∃ zs, broadcastArrays xs = some zs ∧ zs.length = xs.length ∧ ∀ (k : Nat) (x z : Tree α) (b : List Nat), xs[k]? = some x → bs[k]? = some b → zs[k]? = some z →
      Conf u c z ∧ ∀ j, InB u j → item j z = item (bcastSrc b j) x := by
  match xs, bs with
  | [], _ => exact absurd rfl hx
  | x :: ys, [] => have := h.1; simp at this
  | x :: ys, b0 :: bs =>
    have h0 : Conf b0 c x := h.2 0 x b0 rfl rfl
    obtain ⟨t, ht, hc⟩ := confP_transpose (Ps := bs.map fun b => fun r (a : NArr α) => a.Wf ∧ a.shape = b ++ r) (ys := ys) h0
      (by have := h.1; simp at this; simp [this]) fun k y Q hy hQ => by
        obtain ⟨b, hb, rfl⟩ := getElem?_map_iff hQ
        exact h.2 (k + 1) y b hy hb
    have hconv : ∀ (r : List Nat) (l : List (NArr α)), (l.length = ys.length + 1 ∧ ∀ (k : Nat) (v : NArr α) (Q : List Nat → NArr α → Prop), l[k]? = some v →
        ((fun r (a : NArr α) => a.Wf ∧ a.shape = b0 ++ r) :: (bs.map fun b => fun r (a : NArr α) => a.Wf ∧ a.shape = b ++ r))[k]? = some Q → Q r v) →
        l.length = (b0 :: bs).length ∧ ∀ (k : Nat) (a : NArr α) (b : List Nat), l[k]? = some a → (b0 :: bs)[k]? = some b → a.Wf ∧ a.shape = b ++ r := by
      rintro r l ⟨hl, hk⟩
      refine ⟨by have := h.1; simp only [List.length_cons] at *; omega, fun k a b ha hb => ?_⟩
      refine hk k a (fun r (a : NArr α) => a.Wf ∧ a.shape = b ++ r) ha ?_
      have : ((b0 :: bs).map fun b => fun r (a : NArr α) => a.Wf ∧ a.shape = b ++ r)[k]? = some (fun r (a : NArr α) => a.Wf ∧ a.shape = b ++ r) := by
        rw [List.getElem?_map, hb]; rfl
      exact this
    have hfld : ∀ (r : List Nat) (l : List (NArr α)), l.length = (b0 :: bs).length →
        (∀ (k : Nat) (a : NArr α) (b : List Nat), l[k]? = some a → (b0 :: bs)[k]? = some b → a.Wf ∧ a.shape = b ++ r) →
        ∃ ws, NArr.broadcastArrays l = some ws ∧ ws.length = l.length ∧ ∀ (k : Nat) (a w : NArr α) (b : List Nat), l[k]? = some a → (b0 :: bs)[k]? = some b →
          ws[k]? = some w → w.Wf ∧ w.shape = u ++ r ∧ ∀ j, InB u j → sub j w = sub (bcastSrc b j) a := by
      intro r l hl hk
      have hmap : l.map (·.shape) = (b0 :: bs).map (· ++ r) := by
        apply List.ext_getElem?
        intro k
        rw [List.getElem?_map, List.getElem?_map]
        by_cases hkl : k < l.length
        · have hkb : k < (b0 :: bs).length := by omega
          rw [List.getElem?_eq_getElem hkl, List.getElem?_eq_getElem hkb]
          simp only [Option.map_some, Option.some.injEq]
          exact (hk k _ _ (List.getElem?_eq_getElem hkl) (List.getElem?_eq_getElem hkb)).2
        · rw [List.getElem?_eq_none (l := l) (by omega), List.getElem?_eq_none (l := b0 :: bs) (by omega)]
          rfl
      refine ⟨l.map fun a => ofFn (u ++ r) fun i => a.get (bcastSrc a.shape i), ?_, by simp, fun k a w b ha hb hw => ?_⟩
      · unfold NArr.broadcastArrays
        rw [hmap, bcastAll_append r (by simp) hu, Option.bind_some]
        refine mapM_some fun a ha => ?_
        obtain ⟨k, hkl, rfl⟩ := List.getElem_of_mem ha
        have hkb : k < (b0 :: bs).length := by omega
        have hs := (hk k _ _ (List.getElem?_eq_getElem hkl) (List.getElem?_eq_getElem hkb)).2
        exact broadcastTo_eq (by rw [hs]; exact (bcastAll_bcast hu _ (List.getElem_mem hkb)).append r)
      · rw [List.getElem?_map, ha] at hw
        simp only [Option.map_some, Option.some.injEq] at hw
        subst hw
        have hs := (hk k a b ha hb).2
        have hB := bcastAll_bcast hu b (List.mem_of_getElem? hb)
        refine ⟨ofFn_wf _ _, rfl, fun j hj => ?_⟩
        rw [sub_ofFn _ hj, sub_eq hs (bcastSrc_inB hB hj)]
        exact ofFn_congr fun i hi => by rw [hs, bcastSrc_append hB.1 hj hi]
    obtain ⟨t', ht', hc'⟩ := confP_mapM (f := NArr.broadcastArrays)
      (Q := fun r (ws : List (NArr α)) => ws.length = ys.length + 1 ∧ ∀ w ∈ ws, w.Wf ∧ w.shape = u ++ r) hc fun r l hl => by
        obtain ⟨e1, e2⟩ := hconv r l hl
        obtain ⟨ws, g1, g2, g3⟩ := hfld r l e1 e2
        refine ⟨ws, g1, by rw [g2, hl.1], fun w hw => ?_⟩
        obtain ⟨k, hkw, rfl⟩ := List.getElem_of_mem hw
        have hkl : k < l.length := by omega
        have hkb : k < (b0 :: bs).length := by omega
        have := g3 k _ _ _ (List.getElem?_eq_getElem hkl) (List.getElem?_eq_getElem hkb) (List.getElem?_eq_getElem hkw)
        exact ⟨this.1, this.2.1⟩
    refine ⟨_, by unfold broadcastArrays; simp only; rw [ht, Option.bind_some, ht']; rfl, by simp, fun k y z b hy hb hz => ?_⟩
    obtain ⟨k', hk', rfl⟩ := getElem?_map_iff hz
    have hklt : k < ys.length + 1 := by
      have := (List.getElem?_eq_some_iff.1 hy).1
      simpa using this
    have : k' = k := by
      rw [List.getElem?_range hklt] at hk'
      simpa using hk'.symm
    subst this
    refine ⟨confP_map hc' fun r ws hws => ?_, fun j hj => ?_⟩
    · refine hws.2 _ ?_
      rw [List.getD_eq_getElem?_getD, List.getElem?_eq_getElem (by omega)]
      exact List.getElem_mem _
    · rw [← transpose_proj ht hy]
      unfold item
      rw [treeMap_comp, treeMap_comp]
      refine treeMapM_map ht' fun l hl ws hws => ?_
      obtain ⟨r, hr⟩ := confP_leaves hc l hl
      obtain ⟨e1, e2⟩ := hconv r l hr
      obtain ⟨ws', g1, g2, g3⟩ := hfld r l e1 e2
      rw [g1] at hws
      cases hws
      have hkl : k' < l.length := by rw [hr.1]; exact hklt
      have hkw : k' < ws.length := by omega
      rw [List.getD_eq_getElem?_getD (l := ws), List.getD_eq_getElem?_getD (l := l), List.getElem?_eq_getElem hkw, List.getElem?_eq_getElem hkl]
      exact (g3 k' _ _ _ (List.getElem?_eq_getElem hkl) hb (List.getElem?_eq_getElem hkw)).2.2 j hj

/-! ## `atleast_nd`, `vstack`, `hstack`, `dstack`, `column_stack` -/

theorem map_self {β : Type} {f : β → β} {l : List β} (h : ∀ a ∈ l, f a = a) : l.map f = l := by
  induction l with
  | nil => rfl
  | cons a l ih => rw [List.map_cons, h a List.mem_cons_self, ih fun b hb => h b (List.mem_cons_of_mem _ hb)]

theorem atleast1d_id {a : NArr α} (h : 1 ≤ a.shape.length) : NArr.atleast1d a = a := if_neg (by omega)

theorem atleast2d_id {a : NArr α} (h : 2 ≤ a.shape.length) : NArr.atleast2d a = a := by
  unfold NArr.atleast2d
  match hs : a.shape with
  | [] => rw [hs] at h; simp at h
  | [n] => rw [hs] at h; simp at h
  | _ :: _ :: _ => rfl

theorem atleast3d_id {a : NArr α} (h : 3 ≤ a.shape.length) : NArr.atleast3d a = a := by
  unfold NArr.atleast3d
  match hs : a.shape with
  | [] => rw [hs] at h; simp at h
  | [n] => rw [hs] at h; simp at h
  | [m, n] => rw [hs] at h; simp at h
  | _ :: _ :: _ :: _ => rfl

/-- **C52, `atleast_1d/2d/3d`** leave an instance alone whose batch has that many axes. -/
theorem atleast_id {b : List Nat} {c : Cls α} {x : Tree α} (h : Conf b c x) :
    (1 ≤ b.length → atleast1d x = x) ∧ (2 ≤ b.length → atleast2d x = x) ∧ (3 ≤ b.length → atleast3d x = x) := by
  have hs : ∀ a ∈ leaves x, b.length ≤ a.shape.length := fun a ha => by
    obtain ⟨_, r, hr⟩ := conf_leaves h a ha
    rw [hr, List.length_append]; omega
  exact ⟨fun h1 => treeMap_id fun a ha => atleast1d_id (by have := hs a ha; omega), fun h1 => treeMap_id fun a ha => atleast2d_id (by have := hs a ha; omega),
    fun h1 => treeMap_id fun a ha => atleast3d_id (by have := hs a ha; omega)⟩

/-- The instances are put one after the other along batch axis `ax`: the result `z` has the lengths added up at the axis, and record `i` of instance `k` is at position
`i`, shifted along the axis by the lengths of the earlier instances. -/
def JoinedAlong (ax : Nat) (bs : List (List Nat)) (b0 : List Nat) (c : Cls α) (xs : List (Tree α)) (z : Tree α) : Prop :=
  Conf (b0.set ax (bs.map fun b => b.getD ax 0).sum) c z ∧
    ∀ (k : Nat) (x : Tree α) (b i : List Nat), xs[k]? = some x → bs[k]? = some b → InB b i →
      item (i.set ax (((bs.take k).map fun b => b.getD ax 0).sum + i.getD ax 0)) z = item i x

theorem joined_of {f : List (NArr α) → Option (NArr α)} {ax : Nat} {bs : List (List Nat)} {b0 : List Nat} {c : Cls α} {x : Tree α} {ys : List (Tree α)}
    (h : Confs bs c (x :: ys)) (h0 : bs[0]? = some b0) (hax : ax < b0.length) (hb : ∀ b ∈ bs, b.length = b0.length ∧ b.eraseIdx ax = b0.eraseIdx ax)
    (hf : ∀ l : List (NArr α), l ≠ [] → (∀ a ∈ l, b0.length ≤ a.shape.length) → f l = NArr.concatenate l (ax : Int)) :
    ∃ z, treeMapN f x ys = some z ∧ JoinedAlong ax bs b0 c (x :: ys) z := by
  have hbl : bs.length ≠ 0 := by intro e; rw [List.length_eq_zero_iff.1 e] at h0; cases h0
  have hrank : ∀ r (l : List (NArr α)), l.length = bs.length →
      (∀ (k : Nat) (a : NArr α) (b : List Nat), l[k]? = some a → bs[k]? = some b → a.Wf ∧ a.shape = b ++ r) → f l = NArr.concatenate l (ax : Int) := by
    intro r l hl hk
    refine hf l (by intro e; rw [e] at hl; simp at hl; omega) fun a ha => ?_
    obtain ⟨k, hkl, rfl⟩ := List.getElem_of_mem ha
    have hkb : k < bs.length := by omega
    have hs := (hk k _ _ (List.getElem?_eq_getElem hkl) (List.getElem?_eq_getElem hkb)).2
    rw [hs, List.length_append, (hb _ (List.getElem_mem hkb)).1]
    omega
  obtain ⟨z, hz, hzc, hzi⟩ := treeMapN_spec (f := f) (b' := b0.set ax (bs.map fun b => b.getD ax 0).sum) h fun r l hl hk => by
    obtain ⟨z, g1, g2, g3, _⟩ := concatenate_spec hl h0 hax hb hk
    exact ⟨z, by rw [hrank r l hl hk]; exact g1, g2, g3⟩
  refine ⟨z, hz, hzc, fun k w b i hk hbk hi => ?_⟩
  refine hzi k w b _ i hk hbk fun r l w' hl hk' hw => ?_
  obtain ⟨z', g1, _, _, g4⟩ := concatenate_spec hl h0 hax hb hk'
  rw [hrank r l hl hk', g1] at hw
  cases hw
  have := g4 k b i hbk hi
  unfold offset at this
  rwa [← List.map_take] at this

/-- **C52, `vstack`** for batches of at least two axes: the instances one after the other along axis 0. -/
theorem vstack_records_partial {bs : List (List Nat)} {b0 : List Nat} {c : Cls α} {xs : List (Tree α)} (hx : xs ≠ []) (h : Confs bs c xs) (h0 : bs[0]? = some b0)
    (h2 : 2 ≤ b0.length) (hb : ∀ b ∈ bs, b.length = b0.length ∧ b.eraseIdx 0 = b0.eraseIdx 0) :
    ∃ z, vstack xs = some z ∧ JoinedAlong 0 bs b0 c xs z := by
  cases xs with
  | nil => exact absurd rfl hx
  | cons x ys =>
    refine joined_of h h0 (by omega) hb fun l _ hl => ?_
    unfold NArr.vstack
    rw [map_self fun a ha => atleast2d_id (by have := hl a ha; omega)]
    rfl

/-- **C52, `hstack`** for batches of at least two axes: the instances one after the other along axis 1. -/
theorem hstack_records_partial {bs : List (List Nat)} {b0 : List Nat} {c : Cls α} {xs : List (Tree α)} (hx : xs ≠ []) (h : Confs bs c xs) (h0 : bs[0]? = some b0)
    (h2 : 2 ≤ b0.length) (hb : ∀ b ∈ bs, b.length = b0.length ∧ b.eraseIdx 1 = b0.eraseIdx 1) :
    ∃ z, hstack xs = some z ∧ JoinedAlong 1 bs b0 c xs z := by
  cases xs with
  | nil => exact absurd rfl hx
  | cons x ys =>
    refine joined_of h h0 (by omega) hb fun l hne hl => ?_
    unfold NArr.hstack
    rw [map_self fun a ha => atleast1d_id (by have := hl a ha; omega)]
    dsimp only
    cases l with
    | nil => exact absurd rfl hne
    | cons a l =>
      have := hl a List.mem_cons_self
      rw [if_neg (by simp; omega)]
      rfl

/-- **C52, `dstack`** for batches of at least three axes: the instances one after the other along axis 2. -/
theorem dstack_records_partial {bs : List (List Nat)} {b0 : List Nat} {c : Cls α} {xs : List (Tree α)} (hx : xs ≠ []) (h : Confs bs c xs) (h0 : bs[0]? = some b0)
    (h2 : 3 ≤ b0.length) (hb : ∀ b ∈ bs, b.length = b0.length ∧ b.eraseIdx 2 = b0.eraseIdx 2) :
    ∃ z, dstack xs = some z ∧ JoinedAlong 2 bs b0 c xs z := by
  cases xs with
  | nil => exact absurd rfl hx
  | cons x ys =>
    refine joined_of h h0 (by omega) hb fun l _ hl => ?_
    unfold NArr.dstack
    rw [map_self fun a ha => atleast3d_id (by have := hl a ha; omega)]
    rfl

/-- **C52, `column_stack`** for batches of at least two axes: the instances one after the other along axis 1. -/
theorem column_stack_records_partial {bs : List (List Nat)} {b0 : List Nat} {c : Cls α} {xs : List (Tree α)} (hx : xs ≠ []) (h : Confs bs c xs)
    (h0 : bs[0]? = some b0) (h2 : 2 ≤ b0.length) (hb : ∀ b ∈ bs, b.length = b0.length ∧ b.eraseIdx 1 = b0.eraseIdx 1) :
    ∃ z, columnStack xs = some z ∧ JoinedAlong 1 bs b0 c xs z := by
  cases xs with
  | nil => exact absurd rfl hx
  | cons x ys =>
    refine joined_of h h0 (by omega) hb fun l _ hl => ?_
    unfold NArr.columnStack
    rw [map_self fun a ha => ?_]
    · rfl
    · have := hl a ha
      match hs : a.shape with
      | [] => rw [hs] at this; simp only [List.length_nil] at this; omega
      | [n] => rw [hs] at this; simp only [List.length_cons, List.length_nil] at this; omega
      | _ :: _ :: _ => rfl

/-- For smaller batches the functions do different things to fields of different rank.  Two batches of two records with a scalar and a vector field: `vstack` gives
a field with batch shape `(2, 2)` and one with batch shape `(4,)`, `hstack` joins the vectors of records, `atleast_2d` changes the scalar field only, `dstack` and `column_stack` are
inconsistent too; `broadcast_to` the batch shape raises, or asks the vector field for another shape. -/
theorem small_batches_false :
    Conf [2] demoAxisC demoAxis ∧
      vstack [demoAxis, demoAxis] = some (.leaf "a" ⟨[2, 2], [1, 2, 1, 2]⟩ (.leaf "v" ⟨[4, 2], [10, 11, 20, 21, 10, 11, 20, 21]⟩ .nil)) ∧
      hstack [demoAxis, demoAxis] = some (.leaf "a" ⟨[4], [1, 2, 1, 2]⟩ (.leaf "v" ⟨[2, 4], [10, 11, 10, 11, 20, 21, 20, 21]⟩ .nil)) ∧
      atleast2d demoAxis = .leaf "a" ⟨[1, 2], [1, 2]⟩ (.leaf "v" ⟨[2, 2], [10, 11, 20, 21]⟩ .nil) ∧
      (dstack [demoAxis, demoAxis]).map (batchShape demoAxisC) = some (some .unstr) ∧
      (columnStack [demoAxis, demoAxis]).map (batchShape demoAxisC) = some (some .unstr) ∧
      (broadcastTo demoAxis [2, 2]).map (batchShape demoAxisC) = some (some .unstr) ∧ broadcastTo demoAxis [3, 2] = none := by
  refine ⟨⟨rfl, ⟨rfl, rfl⟩, rfl, ⟨rfl, rfl⟩, trivial⟩, ?_⟩
  decide +kernel

/-- `dstack` of two batches (flat) joins the batch axes with the intrinsic axes of a vector field. -/
example : dstack [demoAxis, demoAxis] = some (.leaf "a" ⟨[1, 2, 2], [1, 1, 2, 2]⟩ (.leaf "v" ⟨[2, 2, 2], [10, 10, 11, 11, 20, 20, 21, 21]⟩ .nil)) := by
  decide +kernel

/-- Non-trivial cases. -/
example : takeAlongAxis 0 demo6 ⟨[2, 1], [2, -3]⟩ 1 = some (.leaf "a" ⟨[2, 1], [2, 3]⟩ (.leaf "v" ⟨[2, 1, 2], [4, 5, 6, 7]⟩ .nil)) ∧
    takeAlongAxis 0 demo6 ⟨[1], [1]⟩ 0 = some (.leaf "a" ⟨[1, 3], [3, 4, 5]⟩ (.leaf "v" ⟨[1, 3, 2], [6, 7, 8, 9, 10, 11]⟩ .nil)) ∧
    vstack [demo6, demo6] = concat demoSetC [demo6, demo6] 0 ∧ hstack [demo6, demo6] = concat demoSetC [demo6, demo6] 1 ∧
    columnStack [demo6, demo6] = concat demoSetC [demo6, demo6] 1 ∧
    tile (.leaf "v" ⟨[2, 2], [10, 11, 20, 21]⟩ .nil : Tree Nat) [2, 1] = .leaf "v" ⟨[4, 2], [10, 11, 20, 21, 10, 11, 20, 21]⟩ .nil ∧
    broadcastTo (.leaf "v" ⟨[1, 2], [10, 11]⟩ .nil : Tree Nat) [2, 2] = some (.leaf "v" ⟨[2, 2], [10, 11, 10, 11]⟩ .nil) ∧
    broadcastArrays [demoAxis, .leaf "a" ⟨[1], [7]⟩ (.leaf "v" ⟨[1, 2], [70, 71]⟩ .nil)] =
      some [demoAxis, .leaf "a" ⟨[2], [7, 7]⟩ (.leaf "v" ⟨[2, 2], [70, 71, 70, 71]⟩ .nil)] := by
  decide +kernel

/-! ## C53: comparisons, fills, casts -/

/-- Entrywise result of comparing two single records: same structure, same shapes. -/
def comparedRecord (f : α → α → Bool) (x y : Tree α) (m : Inst (NArr Bool)) : Prop :=
  ∃ z, zip x y = some z ∧ treeMapM (fun p => if p.1.shape = p.2.shape then some (ofFn p.1.shape fun i => f (p.1.get i) (p.2.get i)) else none) z = some m

theorem entrywise_same {β γ : Type} [Inhabited β] [Inhabited γ] {f : α → β → γ} {a : NArr α} {a' : NArr β} (h : a.shape = a'.shape) :
    entrywise f a a' = some (ofFn a.shape fun i => f (a.get i) (a'.get i)) := by
  unfold entrywise
  rw [← h, bcast2_self, Option.map_some]
  congr 1
  exact ofFn_congr fun i hi => by rw [bcastSrc_self hi]

/-- **C53, comparisons.**  `equal`, `not_equal`, `isclose` of instances of one class whose batch shapes broadcast to `u`: the result is an instance of boolean fields
with batch shape `u`, and its record `j` holds the entrywise comparison of the records that are broadcast to `j`. -/
theorem compare_records {f : α → α → Bool} {b b' u : List Nat} {c : Cls α} {x y : Tree α} (h : Conf b c x) (h' : Conf b' c y) (hu : bcast2 b b' = some u) :
    ∃ m, compareInst f x y = some m ∧ ConfP (fun r (a : NArr Bool) => a.Wf ∧ a.shape = u ++ r) [] c m ∧
      ∀ j, InB u j → comparedRecord f (item (bcastSrc b j) x) (item (bcastSrc b' j) y) (item j m) := by
  obtain ⟨z, hz, hc⟩ := confP_zip h h'
  obtain ⟨m, hm, hmc⟩ := confP_mapM (f := fun p : NArr α × NArr α => entrywise f p.1 p.2) (Q := fun r (a : NArr Bool) => a.Wf ∧ a.shape = u ++ r) hc fun r p hp => by
    obtain ⟨w, h1, h2, h3, _⟩ := entrywise_rows (f := f) hp.1.2 hp.2.2 hu
    exact ⟨w, h1, h2, h3⟩
  refine ⟨m, by unfold compareInst; rw [hz]; exact hm, hmc, fun j hj => ?_⟩
  refine ⟨treeMap (fun p => (sub (bcastSrc b j) p.1, sub (bcastSrc b' j) p.2)) z, by unfold item; rw [zip_treeMap, hz]; rfl, ?_⟩
  have hB := bcast2_bcast hu
  have hB' := bcast2_bcast (by rw [bcast2_comm]; exact hu : bcast2 b' b = some u)
  have hshape : ∀ p ∈ leaves z, ∃ r, p.1.shape = b ++ r ∧ p.2.shape = b' ++ r := fun p hp => by
    obtain ⟨r, g1, g2⟩ := confP_leaves hc p hp
    exact ⟨r, g1.2, g2.2⟩
  rw [treeMapM_treeMap]
  have key : ∀ p ∈ leaves z, (if (sub (bcastSrc b j) p.1).shape = (sub (bcastSrc b' j) p.2).shape then
      some (ofFn (sub (bcastSrc b j) p.1).shape fun i => f ((sub (bcastSrc b j) p.1).get i) ((sub (bcastSrc b' j) p.2).get i)) else none) =
      some (sub j (((entrywise f p.1 p.2)).getD ⟨[], []⟩)) := by
    intro p hp
    obtain ⟨r, g1, g2⟩ := hshape p hp
    obtain ⟨w, e1, _, _, e4⟩ := entrywise_rows (f := f) g1 g2 hu
    have hs : (sub (bcastSrc b j) p.1).shape = (sub (bcastSrc b' j) p.2).shape := by
      rw [sub_shape, sub_shape, g1, g2, drop_of_inB (bcastSrc_inB hB hj), drop_of_inB (bcastSrc_inB hB' hj)]
    rw [if_pos hs, e1, Option.getD_some, ← entrywise_same hs, e4 j hj]
  rw [treeMapM_some key]
  congr 1
  unfold item
  refine (treeMapM_map hm fun p hp w hw => ?_).symm
  rw [hw, Option.getD_some]

/-- **C53, `allclose`** is `True` exactly if every pair of corresponding entries (after broadcasting) is close; on classes with a field it agrees with the comparison
`==` uses, with closeness for equality. -/
theorem allclose_eq {f : α → α → Bool} {x y : Tree α} (hx : leaves x ≠ []) : allclose f x y = instEq f x y := by
  unfold allclose instEq
  cases hz : zip x y with
  | none => rfl
  | some z =>
    simp only [Option.bind_some]
    have e : (fun p : NArr α × NArr α => (entrywise f p.1 p.2).map fun m => m.data.all id) = fun p => allEq f p.1 p.2 := by
      funext p
      unfold entrywise allEq
      cases bcast2 p.1.shape p.2.shape with
      | none => rfl
      | some u => simp [ofFn, SortGroup.tab, indices, List.all_map, Function.comp_def]
    rw [e]
    cases ht : treeMapM (fun p => allEq f p.1 p.2) z with
    | none => rfl
    | some t =>
      simp only [Option.map_some, Option.bind_some]
      have hne : leaves t ≠ [] := by
        intro h0
        have := leaves_treeMapM ht
        have hl : leaves z = [] := by
          rw [h0] at this
          exact List.map_eq_nil_iff.1 this
        exact hx ((leaves_zip_nil hz).1 hl)
      rw [treeReduce_and, if_neg hne, foldl_and, Bool.true_and]

/-- On a class without fields `allclose` is `True`, whereas `==` raises. -/
theorem allclose_empty (f : α → α → Bool) : allclose f (.nil : Tree α) .nil = some true ∧ instEq f (.nil : Tree α) .nil = none := ⟨rfl, rfl⟩

/-- **C53, `full_like`, `zeros_like`, `ones_like`**: every entry of every field is the fill value; class, batch shape and shapes are those of the argument. -/
theorem full_like_records {b : List Nat} {c : Cls α} {x : Tree α} (v : α) (h : Conf b c x) :
    Conf b c (fullLike x v) ∧ AllEntries v (fullLike x v) ∧ FieldRel (fun a a' => a.shape = a'.shape) x (fullLike x v) :=
  ⟨fillWith_conf v h, fillWith_entries v x, conf_same_shape h (fillWith_conf v h)⟩

theorem mapEntries_sub {γ : Type} [Inhabited γ] {f : α → γ} {a : NArr α} {b r j : List Nat} (hs : a.shape = b ++ r) (hj : InB b j) :
    sub j (mapEntries f a) = mapEntries f (sub j a) := by
  unfold mapEntries
  have : (ofFn a.shape fun i => f (a.get i)) = ofFn (b ++ r) fun i => f (a.get i) := by rw [hs]
  rw [this, sub_ofFn _ hj, sub_shape, hs, drop_of_inB hj]
  exact ofFn_congr fun i hi => by rw [get_sub hs hj hi]

/-- **C53, `astype`** converts every entry of every field and keeps shapes: record `j` of the result is record `j` converted. -/
theorem astype_records {b : List Nat} {c : Cls α} {x : Tree α} (f : α → α) (h : Conf b c x) :
    Conf b c (astype f x) ∧ FieldRel (fun a a' => a.shape = a'.shape ∧ ∀ i, InB a.shape i → a'.get i = f (a.get i)) x (astype f x) ∧
      ∀ j, InB b j → item j (astype f x) = astype f (item j x) := by
  refine ⟨confP_map h fun r a ha => ⟨ofFn_wf _ _, by rw [← ha.2]; rfl⟩, ?_, fun j hj => ?_⟩
  · unfold astype
    clear h
    induction x with
    | nil => trivial
    | leaf n v rest ih => exact ⟨rfl, ⟨rfl, fun i hi => get_ofFn _ hi⟩, ih⟩
    | nested n s rest ih1 ih2 => exact ⟨rfl, ih1, ih2⟩
  · unfold item astype
    rw [treeMap_comp, treeMap_comp]
    refine treeMap_congr fun a ha => ?_
    obtain ⟨_, r, hr⟩ := conf_leaves h a ha
    exact mapEntries_sub hr hj

/-- Non-trivial cases. -/
example : compareInst (fun a b => a == b) demoAxis (.leaf "a" ⟨[1], [2]⟩ (.leaf "v" ⟨[1, 2], [20, 11]⟩ .nil)) =
      some (.leaf "a" ⟨[2], [false, true]⟩ (.leaf "v" ⟨[2, 2], [false, true, true, false]⟩ .nil)) ∧
    fullLike demoAxis 7 = .leaf "a" ⟨[2], [7, 7]⟩ (.leaf "v" ⟨[2, 2], [7, 7, 7, 7]⟩ .nil) ∧
    astype (· % 2) demoAxis = .leaf "a" ⟨[2], [1, 0]⟩ (.leaf "v" ⟨[2, 2], [0, 1, 0, 1]⟩ .nil) ∧
    allclose (fun a b => a == b || a + 1 == b) demoAxis (astype (· + 1) demoAxis) = some true := by
  decide +kernel

end SoA
