import Verif.TakeModeModel
import Verif.SoAAxisOps3
import Verif.XnpProps
import Verif.SoALaws2

/-!
# C89: indices out of range, in `take` and `take_along_axis`
-/

namespace Xnp

open Agg NArr SoA

variable {α : Type} [Inhabited α]

/-! ## `take` -/

/-- All modes at once. -/
theorem takeMode_inst {m : TakeMode} {fill : α} {b s : List Nat} {c : Cls α} {x : Tree α} {inds : List Int} {ax n : Nat} (h : Conf b c x)
    (hn : b[ax]? = some n) (h0 : 0 < n) :
    ∃ z, takeModeTree m fill x s inds (some (ax : Int)) = some z ∧ Conf (b.take ax ++ s ++ b.drop (ax + 1)) c z ∧
      ∀ p q u, InB (b.take ax) p → InB s q → InB (b.drop (ax + 1)) u →
        (∀ v : Nat, v < n → m.pos n (inds.getD (ravel s q) 0) = some v → item (p ++ q ++ u) z = item (p ++ v :: u) x) ∧
        (m.pos n (inds.getD (ravel s q) 0) = none → item (p ++ q ++ u) z = fullLike (item (p ++ 0 :: u) x) fill) := by
  have hax : ax < b.length := (List.getElem?_eq_some_iff.1 hn).1
  obtain ⟨z, hz, hzc⟩ := mapM_spec (f := fun a => NArr.takeMode m fill a s inds (ax : Int)) (b' := b.take ax ++ s ++ b.drop (ax + 1)) h
    fun r a ha hs => by
      obtain ⟨z, h1, h2, h3, _⟩ := takeMode_spec (m := m) (oob := fill) (s := s) (inds := inds) hs hn h0
      exact ⟨z, h1, h2, h3⟩
  refine ⟨z, hz, hzc, fun p q u hp hq hu => ⟨fun v hv hw => mapM_item h hz fun r a w ha hs hw' => ?_, fun hw => ?_⟩⟩
  · obtain ⟨z', g1, _, _, g4⟩ := takeMode_spec (m := m) (oob := fill) (s := s) (inds := inds) hs hn h0
    rw [g1] at hw'
    cases hw'
    exact (g4 p q u hp hq hu).1 v hv hw
  · unfold item fullLike
    rw [treeMap_comp]
    refine treeMapM_map hz fun a ha w hw' => ?_
    obtain ⟨h1, r, hs⟩ := conf_leaves h a ha
    obtain ⟨z', g1, _, _, g4⟩ := takeMode_spec (m := m) (oob := fill) (s := s) (inds := inds) hs hn h0
    rw [g1] at hw'
    cases hw'
    rw [(g4 p q u hp hq hu).2 hw]
    have hin : InB b (p ++ 0 :: u) := by
      have e : b = b.take ax ++ (n :: b.drop (ax + 1)) := by
        conv => lhs; rw [← List.take_append_drop ax b]
        rw [List.drop_eq_getElem_cons hax, (List.getElem?_eq_some_iff.1 hn).2]
      rw [e]
      exact hp.append ⟨h0, hu⟩
    rw [sub_eq hs hin]
    rfl

theorem getD_of_some {inds : List Int} {k : Nat} {i : Int} (h : inds[k]? = some i) : inds.getD k 0 = i := by
  rw [List.getD_eq_getElem?_getD, h]; rfl

/-- **C89, `take(…, mode="clip")`** along a nonempty batch axis: an index selects the record at the nearest position of the axis (negative
indices: the first one). -/
theorem take_clip_records {fill : α} {b s : List Nat} {c : Cls α} {x : Tree α} {inds : List Int} {ax n : Nat} (h : Conf b c x)
    (hn : b[ax]? = some n) (h0 : 0 < n) :
    ∃ z, takeModeTree .clip fill x s inds (some (ax : Int)) = some z ∧ Conf (b.take ax ++ s ++ b.drop (ax + 1)) c z ∧
      ∀ p q u, InB (b.take ax) p → InB s q → InB (b.drop (ax + 1)) u → ∀ i, inds[ravel s q]? = some i →
        item (p ++ q ++ u) z = item (p ++ (if i < 0 then 0 else if i < n then i.toNat else n - 1) :: u) x := by
  obtain ⟨z, h1, h2, h3⟩ := takeMode_inst (m := .clip) (fill := fill) (s := s) (inds := inds) h hn h0
  refine ⟨z, h1, h2, fun p q u hp hq hu i hi => (h3 p q u hp hq hu).1 _ ?_ ?_⟩
  · by_cases a : i < 0
    · rw [if_pos a]; exact h0
    · rw [if_neg a]
      by_cases b : i < n
      · rw [if_pos b]; omega
      · rw [if_neg b]; omega
  · rw [getD_of_some hi]
    show some _ = some _
    congr 1
    by_cases a : i < 0
    · rw [if_pos a]; omega
    · rw [if_neg a]
      by_cases b : i < n
      · rw [if_pos b]; omega
      · rw [if_neg b]; omega

/-- **C89, `take(…, mode="wrap")`** along a nonempty batch axis of length `n`: an index selects the record at the position that differs from
it by a multiple of `n`. -/
theorem take_wrap_records {fill : α} {b s : List Nat} {c : Cls α} {x : Tree α} {inds : List Int} {ax n : Nat} (h : Conf b c x)
    (hn : b[ax]? = some n) (h0 : 0 < n) :
    ∃ z, takeModeTree .wrap fill x s inds (some (ax : Int)) = some z ∧ Conf (b.take ax ++ s ++ b.drop (ax + 1)) c z ∧
      ∀ p q u, InB (b.take ax) p → InB s q → InB (b.drop (ax + 1)) u → ∀ i, inds[ravel s q]? = some i →
        ∀ (v : Nat) (t : Int), v < n → i = v + t * n → item (p ++ q ++ u) z = item (p ++ v :: u) x := by
  obtain ⟨z, h1, h2, h3⟩ := takeMode_inst (m := .wrap) (fill := fill) (s := s) (inds := inds) h hn h0
  refine ⟨z, h1, h2, fun p q u hp hq hu i hi v t hv ht => (h3 p q u hp hq hu).1 v hv ?_⟩
  rw [getD_of_some hi]
  show some _ = some _
  congr 1
  rw [ht, Int.add_mul_emod_self_right, Int.emod_eq_of_lt (by omega) (by omega)]
  rfl

/-- **C89, `take(…, mode="fill", fill_value=v)`** (also the default mode) along a nonempty batch axis of length `n`: an index in
`-n … n-1` selects a record, counted from the end if negative; any other gives a record all of whose entries are `v`. -/
theorem take_fill_records {fill : α} {b s : List Nat} {c : Cls α} {x : Tree α} {inds : List Int} {ax n : Nat} (h : Conf b c x)
    (hn : b[ax]? = some n) (h0 : 0 < n) :
    ∃ z, takeModeTree .fill fill x s inds (some (ax : Int)) = some z ∧ Conf (b.take ax ++ s ++ b.drop (ax + 1)) c z ∧
      ∀ p q u, InB (b.take ax) p → InB s q → InB (b.drop (ax + 1)) u → ∀ i, inds[ravel s q]? = some i →
        (0 ≤ i → i < n → item (p ++ q ++ u) z = item (p ++ i.toNat :: u) x) ∧
        (i < 0 → -(n : Int) ≤ i → item (p ++ q ++ u) z = item (p ++ (i + n).toNat :: u) x) ∧
        (i < -(n : Int) ∨ (n : Int) ≤ i → Conf [] c (item (p ++ q ++ u) z) ∧ AllEntries fill (item (p ++ q ++ u) z)) := by
  obtain ⟨z, h1, h2, h3⟩ := takeMode_inst (m := .fill) (fill := fill) (s := s) (inds := inds) h hn h0
  refine ⟨z, h1, h2, fun p q u hp hq hu i hi => ⟨fun a b => ?_, fun a b => ?_, fun a => ?_⟩⟩
  · refine (h3 p q u hp hq hu).1 _ (by omega) ?_
    rw [getD_of_some hi]
    show (if _ then _ else _) = _
    have e : wrapIdx n i = i := by unfold wrapIdx; rw [if_neg (by omega)]
    rw [e, if_pos ⟨a, b⟩]
  · refine (h3 p q u hp hq hu).1 _ (by omega) ?_
    rw [getD_of_some hi]
    show (if _ then _ else _) = _
    have e : wrapIdx n i = i + n := by unfold wrapIdx; rw [if_pos a]
    rw [e, if_pos (by omega)]
  · have hz := (h3 p q u hp hq hu).2 (by
      rw [getD_of_some hi]
      show (if _ then _ else _) = _
      by_cases hneg : i < 0
      · have e : wrapIdx n i = i + n := by unfold wrapIdx; rw [if_pos hneg]
        rw [e, if_neg (by omega)]
      · have e : wrapIdx n i = i := by unfold wrapIdx; rw [if_neg hneg]
        rw [e, if_neg (by omega)])
    refine ⟨item_conf (b' := []) (by rw [List.append_nil]; exact h2) ((hp.append hq).append hu), ?_⟩
    rw [hz]
    exact fillWith_entries fill _

/-- The public `take` with no `mode` is `mode="fill"`. -/
theorem take_default_is_fill (oob : α) (x : Tree α) (s : List Nat) (inds : List Int) (axis : Option Int) :
    takeTree oob x s inds axis = takeModeTree .fill oob x s inds axis := by
  cases axis <;> rfl

/-- On an empty axis nothing can be taken. -/
theorem take_empty_axis {m : TakeMode} {fill : α} {b s : List Nat} {c : Cls α} {x : Tree α} {inds : List Int} {ax : Nat} (h : Conf b c x)
    (hne : leaves x ≠ []) (hn : b[ax]? = some 0) (hs : size s ≠ 0) : takeModeTree m fill x s inds (some (ax : Int)) = none := by
  obtain ⟨a, l, hl⟩ := List.exists_cons_of_ne_nil hne
  have ha : a ∈ leaves x := by rw [hl]; exact List.mem_cons_self
  obtain ⟨_, r, hr⟩ := conf_leaves h a ha
  have hax : ax < b.length := (List.getElem?_eq_some_iff.1 hn).1
  have hbn : a.shape.getD ax 0 = 0 := by
    rw [hr, getD_append_left' _ hax, List.getD_eq_getElem?_getD, hn]; rfl
  refine treeMapM_none ha ?_
  unfold takeMode
  rw [normAxis_nat (by rw [hr, List.length_append]; omega), Option.bind_some, if_pos hbn, if_neg hs]

/-! ## `take_along_axis` -/

theorem bcastRev_left {s t : List Nat} (h : bcastDims t s = true) : bcastRev s t = some s := by
  induction s generalizing t with
  | nil => cases t with
    | nil => rfl
    | cons => simp [bcastDims] at h
  | cons d s ih => cases t with
    | nil => rfl
    | cons e t =>
      simp only [bcastDims, Bool.and_eq_true, Bool.or_eq_true, beq_iff_eq] at h
      rw [bcastRev, if_pos (by rcases h.1 with h | h; exact Or.inl h.symm; exact Or.inr h), ih h.2]
      rfl

theorem bcast2_left {s t : List Nat} (hl : s.length = t.length) (h : Bcast t s) : bcast2 s t = some s := by
  have h2 := h.2
  rw [hl, Nat.sub_self, List.drop_zero] at h2
  unfold bcast2
  rw [bcastRev_left (by rw [bcastDims_reverse hl.symm]; exact h2), Option.map_some, List.reverse_reverse]

omit [Inhabited α] in
/-- In a batch of a class of scalar fields every field has the batch shape. -/
theorem scalar_leaves {b : List Nat} {c : Cls α} {x : Tree α} (hc : c.Scalar) (h : Conf b c x) :
    ConfP (fun r (a : NArr α) => r = [] ∧ a.Wf ∧ a.shape = b) [] c x := by
  unfold Conf at h
  induction x generalizing c with
  | nil => cases c with
    | nil => trivial
    | leaf => exact h.elim
    | nested => exact h.elim
  | leaf n v rest ih => cases c with
    | nil => exact h.elim
    | nested => exact h.elim
    | leaf n' ish fl cr =>
      obtain ⟨h1, h2, h3⟩ := h
      obtain ⟨rfl, hc'⟩ := hc
      exact ⟨h1, ⟨rfl, h2.1, by simpa using h2.2⟩, ih hc' h3⟩
  | nested n s rest ih1 ih2 => cases c with
    | nil => exact h.elim
    | leaf => exact h.elim
    | nested n' ish cs cr =>
      obtain ⟨h1, h2, h3⟩ := h
      obtain ⟨rfl, hs', hr'⟩ := hc
      exact ⟨h1, ih1 hs' h2, ih2 hr' h3⟩

/-- One array. -/
theorem alongMode_spec {m : AlongMode} {oob : α} {inds : NArr Int} {a : NArr α} {b : List Nat} {k : Nat} (ha : a.Wf) (hs : a.shape = b)
    (hk : k < b.length) (hl : inds.shape.length = b.length)
    (hb : ∀ i, i < b.length → i ≠ k → inds.shape.getD i 0 = b.getD i 0 ∨ inds.shape.getD i 0 = 1) :
    ∃ z, NArr.alongMode m oob inds (k : Int) a = some z ∧ z.Wf ∧ z.shape = b.set k (inds.shape.getD k 0) ∧
      ∀ j, InB (b.set k (inds.shape.getD k 0)) j →
        z.get j = match m.pos (b.getD k 0) (inds.get (List.zipWith (fun d q => if d = 1 then 0 else q) inds.shape j)) with
          | some v => a.get (j.set k v)
          | none => oob := by
  subst hs
  have hB1 : Bcast (inds.shape.set k 1) (a.shape.set k 1) := by
    rw [Bcast.iff]
    refine ⟨by simp; omega, fun i hi => ?_⟩
    rw [List.length_set] at hi
    rw [List.length_set, List.length_set, hl, Nat.sub_self, Nat.zero_add]
    by_cases hik : i = k
    · subst hik; right; rw [getD_set_eq hi]
    · rw [getD_set_ne' (Ne.symm hik), getD_set_ne' (Ne.symm hik)]
      exact hb i (by omega) hik
  have hB2 : Bcast inds.shape (a.shape.set k (inds.shape.getD k 0)) := by
    rw [Bcast.iff]
    refine ⟨by simp; omega, fun i hi => ?_⟩
    rw [List.length_set, hl, Nat.sub_self, Nat.zero_add]
    by_cases hik : i = k
    · subst hik; left; rw [getD_set_eq hk]
    · rw [getD_set_ne' (Ne.symm hik)]
      exact hb i (by omega) hik
  have hset : a.shape.set k (a.shape.getD k 0) = a.shape := by
    rw [List.getD_eq_getElem?_getD, List.getElem?_eq_getElem hk]
    exact List.set_getElem_self hk
  unfold NArr.alongMode
  rw [normAxis_nat hk, Option.bind_some, if_neg (by omega), bcast2_left (by simp [hl]) hB1, Option.bind_some, List.set_set, List.set_set, hset,
    broadcastTo_self ha, Option.bind_some, broadcastTo_eq hB2, Option.map_some]
  refine ⟨_, rfl, ofFn_wf _ _, rfl, fun j hj => ?_⟩
  have e : (ofFn (a.shape.set k (inds.shape.getD k 0)) fun i => inds.get (bcastSrc inds.shape i)).get j =
      inds.get (List.zipWith (fun d q => if d = 1 then 0 else q) inds.shape j) := by
    rw [get_ofFn _ hj]
    unfold bcastSrc
    rw [hj.length, List.length_set, hl, Nat.sub_self, List.drop_zero]
  refine (get_ofFn _ hj).trans ?_
  rw [e]
  cases m.pos (a.shape.getD k 0) (inds.get (List.zipWith (fun d q => if d = 1 then 0 else q) inds.shape j)) <;> rfl

/-- **C89, `take_along_axis` with `mode` or `fill_value`**, for classes of scalar fields and an index array of the batch rank, along a
nonempty batch axis of length `n`: an index in `-n … n-1` selects a record, counted from the end if negative; for any other, `"fill"` gives a record of
fill values and `"clip"` the record at the nearest end of the axis.  Missing: classes with other fields, for which it raises
(`along_mode_raises`). -/
theorem along_mode_records_partial {m : Option AlongMode} {fill : Option α} {oob : α} {b : List Nat} {c : Cls α} {x : Tree α} {inds : NArr Int}
    {k n : Nat} (hc : c.Scalar) (h : Conf b c x) (hm : m ≠ none ∨ fill ≠ none) (hn : b[k]? = some n) (h0 : 0 < n)
    (hl : inds.shape.length = b.length)
    (hb : ∀ i, i < b.length → i ≠ k → inds.shape.getD i 0 = b.getD i 0 ∨ inds.shape.getD i 0 = 1) :
    ∃ z, takeAlongTree oob x inds (some (k : Int)) m fill = some z ∧ Conf (b.set k (inds.shape.getD k 0)) c z ∧
      ∀ j, InB (b.set k (inds.shape.getD k 0)) j → ∀ i, i = inds.get (List.zipWith (fun d q => if d = 1 then 0 else q) inds.shape j) →
        (0 ≤ i → i < n → item j z = item (j.set k i.toNat) x) ∧
        (i < 0 → -(n : Int) ≤ i → item j z = item (j.set k (i + n).toNat) x) ∧
        (m = some .clip → i < -(n : Int) → item j z = item (j.set k 0) x) ∧
        (m = some .clip → (n : Int) ≤ i → item j z = item (j.set k (n - 1)) x) ∧
        (m ≠ some .clip → i < -(n : Int) ∨ (n : Int) ≤ i → Conf [] c (item j z) ∧ AllEntries (fill.getD oob) (item j z)) := by
  have hk : k < b.length := (List.getElem?_eq_some_iff.1 hn).1
  have hbn : b.getD k 0 = n := by rw [List.getD_eq_getElem?_getD, hn]; rfl
  have hcall : takeAlongTree oob x inds (some (k : Int)) m fill = treeMapM (NArr.alongMode (m.getD .fill) (fill.getD oob) inds k) x := by
    unfold takeAlongTree
    rw [if_pos]
    cases m with
    | some _ => rfl
    | none => cases fill with
      | some _ => rfl
      | none => rcases hm with h | h <;> exact absurd rfl h
  rw [hcall]
  obtain ⟨z, hz, hzc⟩ := confP_mapM (f := NArr.alongMode (m.getD .fill) (fill.getD oob) inds k)
    (Q := fun r (a : NArr α) => a.Wf ∧ a.shape = b.set k (inds.shape.getD k 0) ++ r) (scalar_leaves hc h) fun r a hr => by
      obtain ⟨rfl, ha, hs⟩ := hr
      obtain ⟨w, h1, h2, h3, _⟩ := alongMode_spec (m := m.getD .fill) (oob := fill.getD oob) ha hs hk hl hb
      exact ⟨w, h1, h2, by rw [List.append_nil]; exact h3⟩
  have hleaf : ∀ a ∈ leaves x, a.Wf ∧ a.shape = b := fun a ha => by
    obtain ⟨r, hr⟩ := confP_leaves (scalar_leaves hc h) a ha
    exact hr.2
  -- one record of the result
  have hrec : ∀ j, InB (b.set k (inds.shape.getD k 0)) j → ∀ v, v < n →
      (m.getD .fill).pos n (inds.get (List.zipWith (fun d q => if d = 1 then 0 else q) inds.shape j)) = some v → item j z = item (j.set k v) x := by
    intro j hj v hv hp
    refine treeMapM_map hz fun a ha w hw => ?_
    obtain ⟨ha1, ha2⟩ := hleaf a ha
    obtain ⟨w', h1, h2, h3, h4⟩ := alongMode_spec (m := m.getD .fill) (oob := fill.getD oob) ha1 ha2 hk hl hb
    rw [h1] at hw
    cases hw
    have hin : InB b (j.set k v) := inB_set_axis hj (by omega)
    rw [sub_eq (r := []) (by rw [List.append_nil]; exact h3) hj, sub_eq (r := []) (by rw [List.append_nil]; exact ha2) hin]
    refine ofFn_congr fun u hu => ?_
    cases u with
    | cons => exact hu.elim
    | nil => rw [List.append_nil, List.append_nil, h4 j hj, hbn, hp]
  have hfill : ∀ j, InB (b.set k (inds.shape.getD k 0)) j →
      (m.getD .fill).pos n (inds.get (List.zipWith (fun d q => if d = 1 then 0 else q) inds.shape j)) = none → AllEntries (fill.getD oob) (item j z) := by
    intro j hj hp
    have e : item j z = fullLike (item (j.set k 0) x) (fill.getD oob) := by
      unfold item fullLike
      rw [treeMap_comp]
      refine treeMapM_map hz fun a ha w hw => ?_
      obtain ⟨ha1, ha2⟩ := hleaf a ha
      obtain ⟨w', h1, h2, h3, h4⟩ := alongMode_spec (m := m.getD .fill) (oob := fill.getD oob) ha1 ha2 hk hl hb
      rw [h1] at hw
      cases hw
      have hin : InB b (j.set k 0) := inB_set_axis hj (by omega)
      rw [sub_eq (r := []) (by rw [List.append_nil]; exact h3) hj, sub_eq (r := []) (by rw [List.append_nil]; exact ha2) hin]
      refine ofFn_congr fun u hu => ?_
      cases u with
      | cons => exact hu.elim
      | nil => rw [List.append_nil, h4 j hj, hbn, hp]
    rw [e]
    exact fillWith_entries _ _
  refine ⟨z, hz, hzc, fun j hj i hi => ?_⟩
  have hpos : ∀ v : Nat, v < n → (wrapIdx n i = v) → (m.getD .fill).pos n i = some v := by
    intro v hv hw
    rcases hmm : m.getD .fill with _ | _
    · show (if _ then _ else _) = _
      rw [hw, if_pos (by omega)]; rfl
    · show some _ = _
      rw [hw]
      congr 1
      omega
  refine ⟨fun a b => ?_, fun a b => ?_, fun hm' a => ?_, fun hm' a => ?_, fun hm' a => ⟨?_, ?_⟩⟩
  · refine hrec j hj _ (by omega) ?_
    rw [← hi]
    refine hpos _ (by omega) ?_
    unfold wrapIdx; rw [if_neg (by omega)]; omega
  · refine hrec j hj _ (by omega) ?_
    rw [← hi]
    refine hpos _ (by omega) ?_
    unfold wrapIdx; rw [if_pos a]; omega
  · refine hrec j hj _ h0 ?_
    rw [← hi, hm']
    show some _ = _
    have e : wrapIdx n i = i + n := by unfold wrapIdx; rw [if_pos (by omega)]
    rw [e]
    congr 1
    omega
  · refine hrec j hj _ (by omega) ?_
    rw [← hi, hm']
    show some _ = _
    have e : wrapIdx n i = i := by unfold wrapIdx; rw [if_neg (by omega)]
    rw [e]
    congr 1
    omega
  · exact item_conf (b' := []) (by rw [List.append_nil]; exact hzc) hj
  · refine hfill j hj ?_
    rw [← hi]
    have hmf : m.getD .fill = .fill := by
      cases m with
      | none => rfl
      | some m' => cases m' with
        | fill => rfl
        | clip => exact absurd rfl hm'
    rw [hmf]
    show (if _ then _ else _) = _
    by_cases hneg : i < 0
    · have e : wrapIdx n i = i + n := by unfold wrapIdx; rw [if_pos hneg]
      rw [e, if_neg (by omega)]
    · have e : wrapIdx n i = i := by unfold wrapIdx; rw [if_neg hneg]
      rw [e, if_neg (by omega)]

/-- With `mode` or `fill_value` every field must have the rank of the index array: on any other class the call raises, whatever the
indices. -/
theorem along_mode_raises {m : Option AlongMode} {fill : Option α} {oob : α} {x : Tree α} {inds : NArr Int} {k : Int} {a : NArr α}
    (hm : m ≠ none ∨ fill ≠ none) (ha : a ∈ leaves x) (hr : a.shape.length ≠ inds.shape.length) :
    takeAlongTree oob x inds (some k) m fill = none := by
  unfold takeAlongTree
  rw [if_pos]
  · refine treeMapM_none ha ?_
    unfold NArr.alongMode
    cases normAxis k a.shape.length with
    | none => rfl
    | some ax => rw [Option.bind_some, if_pos (Ne.symm hr)]
  · cases m with
    | some _ => rfl
    | none => cases fill with
      | some _ => rfl
      | none => rcases hm with h | h <;> exact absurd rfl h

/-- Without them, `axis=None` raises. -/
theorem along_none_raises (oob : α) (x : Tree α) (inds : NArr Int) : takeAlongTree oob x inds none none none = none := rfl

/-- Without them the call is the one of C52. -/
theorem along_default (oob : α) (x : Tree α) (inds : NArr Int) (k : Int) :
    takeAlongTree oob x inds (some k) none none = SoA.takeAlongAxis oob x inds k := rfl

/-! ## The claim for all classes is false; examples -/

/-- A batch of 2×3 records with a scalar and a vector field: the default call reorders records, naming the default mode makes the same call
raise. -/
theorem along_mode_false :
    Conf [2, 3] demoSetC demo6 ∧
      takeAlongTree 0 demo6 ⟨[2, 1], [2, -3]⟩ (some 1) none none =
        some (.leaf "a" ⟨[2, 1], [2, 3]⟩ (.leaf "v" ⟨[2, 1, 2], [4, 5, 6, 7]⟩ .nil)) ∧
      takeAlongTree 0 demo6 ⟨[2, 1], [2, -3]⟩ (some 1) (some .fill) none = none ∧
      takeAlongTree 0 demo6 ⟨[2, 1], [2, -3]⟩ (some 1) none (some 7) = none := by
  refine ⟨⟨rfl, ⟨rfl, rfl⟩, rfl, ⟨rfl, rfl⟩, trivial⟩, ?_⟩
  decide +kernel

/-- The modes of `take` on a batch of three records with a vector field. -/
example : takeModeTree .clip 0 (.leaf "v" ⟨[3, 2], [1, 2, 3, 4, 5, 6]⟩ .nil : Tree Nat) [3] [5, -1, 1] (some 0) =
      some (.leaf "v" ⟨[3, 2], [5, 6, 1, 2, 3, 4]⟩ .nil) ∧
    takeModeTree .wrap 0 (.leaf "v" ⟨[3, 2], [1, 2, 3, 4, 5, 6]⟩ .nil : Tree Nat) [3] [5, -1, 3] (some 0) =
      some (.leaf "v" ⟨[3, 2], [5, 6, 5, 6, 1, 2]⟩ .nil) ∧
    takeModeTree .fill 9 (.leaf "v" ⟨[3, 2], [1, 2, 3, 4, 5, 6]⟩ .nil : Tree Nat) [3] [5, -1, -4] (some 0) =
      some (.leaf "v" ⟨[3, 2], [9, 9, 5, 6, 9, 9]⟩ .nil) := by decide +kernel

/-- The modes of `take_along_axis` on a batch of 2×2 records of two scalars. -/
example : takeAlongTree 0 (.leaf "a" ⟨[2, 2], [1, 2, 3, 4]⟩ (.leaf "b" ⟨[2, 2], [5, 6, 7, 8]⟩ .nil) : Tree Nat) ⟨[1, 3], [1, 2, -5]⟩ (some 1) none (some 9) =
      some (.leaf "a" ⟨[2, 3], [2, 9, 9, 4, 9, 9]⟩ (.leaf "b" ⟨[2, 3], [6, 9, 9, 8, 9, 9]⟩ .nil)) ∧
    takeAlongTree 0 (.leaf "a" ⟨[2, 2], [1, 2, 3, 4]⟩ (.leaf "b" ⟨[2, 2], [5, 6, 7, 8]⟩ .nil) : Tree Nat) ⟨[1, 3], [1, 2, -5]⟩ (some 1) (some .clip) none =
      some (.leaf "a" ⟨[2, 3], [2, 2, 1, 4, 4, 3]⟩ (.leaf "b" ⟨[2, 3], [6, 6, 5, 8, 8, 7]⟩ .nil)) := by decide +kernel

end Xnp
