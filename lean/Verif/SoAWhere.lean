import Verif.SoAPad
import Verif.UpdateProps

/-!
# C46: `where`, `where_no_broadcast`, `update_on_condition`, `set_as_condition` and records
-/

namespace NArr

theorem bcastDims_append2 {s t s' t' : List Nat} (h : bcastDims s t = true) (h' : bcastDims s' t' = true) : bcastDims (s ++ s') (t ++ t') = true := by
  induction s generalizing t with
  | nil =>
    cases t with
    | nil => exact h'
    | cons => simp [bcastDims] at h
  | cons d s ih =>
    cases t with
    | nil => simp [bcastDims] at h
    | cons e t =>
      simp only [bcastDims, Bool.and_eq_true, List.cons_append] at h ⊢
      exact ⟨h.1, ih h.2⟩

theorem bcastDims_ones (r : List Nat) : bcastDims (List.replicate r.length 1) r = true := by
  induction r with
  | nil => rfl
  | cons d r ih => simp [List.replicate_succ, bcastDims, ih]

/-- Extra axes of length 1 broadcast over the trailing axes. -/
theorem Bcast.ones {s t : List Nat} (h : Bcast s t) (r : List Nat) : Bcast (s ++ List.replicate r.length 1) (t ++ r) := by
  refine ⟨by simp only [List.length_append, List.length_replicate]; have := h.1; omega, ?_⟩
  have e : (t ++ r).length - (s ++ List.replicate r.length 1).length = t.length - s.length := by
    simp only [List.length_append, List.length_replicate]; omega
  rw [e, List.drop_append, show t.length - s.length - t.length = 0 by omega, List.drop_zero]
  exact bcastDims_append2 h.2 (bcastDims_ones r)

theorem zipWith_ones (i : List Nat) : List.zipWith (fun d k => if d = 1 then 0 else k) (List.replicate i.length 1) i = List.replicate i.length 0 := by
  induction i with
  | nil => rfl
  | cons k i ih => simp [List.replicate_succ, ih]

theorem bcastSrc_ones {s t r k i : List Nat} (h : s.length ≤ t.length) (hk : InB t k) (hi : InB r i) :
    bcastSrc (s ++ List.replicate r.length 1) (k ++ i) = bcastSrc s k ++ List.replicate r.length 0 := by
  have e : (k ++ i).length - (s ++ List.replicate r.length 1).length = k.length - s.length := by
    simp only [List.length_append, List.length_replicate, hi.length]; omega
  unfold bcastSrc
  rw [e, List.drop_append, show k.length - s.length - k.length = 0 by omega, List.drop_zero,
    List.zipWith_append (by rw [List.length_drop, hk.length]; omega), ← hi.length, zipWith_ones]

end NArr

namespace SoA

open Agg NArr

variable {α : Type} [Inhabited α]

theorem confP_and {β : Type} {P Q : List Nat → β → Prop} {e : List Nat} {c : Cls α} {x : Inst β} (h : ConfP P e c x) (h' : ConfP Q e c x) :
    ConfP (fun r v => P r v ∧ Q r v) e c x := by
  induction x generalizing e c with
  | nil => cases c <;> first | exact trivial | exact h.elim
  | leaf n v rest ih =>
    cases c with
    | nil => exact h.elim
    | nested => exact h.elim
    | leaf => exact ⟨h.1, ⟨h.2.1, h'.2.1⟩, ih h.2.2 h'.2.2⟩
  | nested n s rest ih1 ih2 =>
    cases c with
    | nil => exact h.elim
    | leaf => exact h.elim
    | nested => exact ⟨h.1, ih1 h.2.1 h'.2.1, ih2 h.2.2 h'.2.2⟩

/-- Every array of the instance has `m` intrinsic axes. -/
def IntrinsicRank (m : Nat) (c : Cls α) (x : Tree α) : Prop := ConfP (fun r (_ : NArr α) => r.length = m) [] c x

theorem where_general {b : List Nat} {c : Cls α} {x y : Tree α} {cond : NArr Bool} {sel : List Nat → Bool} {G : List Nat → Prop}
    (hx : Conf b c x) (hG : ConfP (fun r (_ : NArr α) => G r) [] c x) (hy : Conf b c y)
    (hcond : ∀ r, G r → ∃ cb, broadcastTo cond (b ++ r) = some cb ∧ ∀ j i, InB b j → InB r i → cb.get (j ++ i) = sel j) :
    ∃ z, whereInst cond x y = some z ∧ Conf b c z ∧ ∀ j, InB b j → item j z = if sel j then item j x else item j y := by
  have hleaf : ∀ r (a w : NArr α), (a.Wf ∧ a.shape = b ++ r) → G r → (w.Wf ∧ w.shape = b ++ r) →
      ∃ z, whereLeaf cond a w = some z ∧ (z.Wf ∧ z.shape = b ++ r) ∧ ∀ j, InB b j → sub j z = if sel j then sub j a else sub j w := by
    intro r a w ha hg hw
    obtain ⟨cb, h1, h2⟩ := hcond r hg
    have hb : broadcastTo w (b ++ r) = some w := by rw [← hw.2]; exact broadcastTo_self hw.1
    unfold whereLeaf whereSame
    rw [ha.2, h1, hb]
    simp only [Option.bind_some, Option.map_some]
    refine ⟨_, rfl, ⟨ofFn_wf _ _, rfl⟩, fun j hj => ?_⟩
    rw [sub_ofFn _ hj]
    by_cases hs : sel j = true
    · rw [if_pos hs, sub_eq ha.2 hj]
      exact ofFn_congr fun i hi => by rw [h2 j i hj hi, if_pos hs]
    · rw [if_neg hs, sub_eq hw.2 hj]
      exact ofFn_congr fun i hi => by rw [h2 j i hj hi, if_neg hs]
  obtain ⟨t, ht, htc⟩ := confP_zip (confP_and hx hG) hy
  obtain ⟨z, hz, hzc⟩ := confP_mapM (f := fun p : NArr α × NArr α => whereLeaf cond p.1 p.2) (Q := fun r (a : NArr α) => a.Wf ∧ a.shape = b ++ r) htc
    fun r p hp => by
      obtain ⟨z, h1, h2, _⟩ := hleaf r p.1 p.2 hp.1.1 hp.1.2 hp.2
      exact ⟨z, h1, h2⟩
  refine ⟨z, by unfold whereInst; rw [ht]; exact hz, hzc, fun j hj => ?_⟩
  obtain ⟨p1, p2⟩ := zip_proj ht
  by_cases hs : sel j = true
  · rw [if_pos hs, ← p1]
    unfold item
    rw [treeMap_comp]
    refine treeMapM_map hz fun p hp w hw => ?_
    obtain ⟨r, hr⟩ := confP_leaves htc p hp
    obtain ⟨z', h1, _, h3⟩ := hleaf r p.1 p.2 hr.1.1 hr.1.2 hr.2
    rw [h1] at hw
    cases hw
    rw [h3 j hj, if_pos hs]
  · rw [if_neg hs, ← p2]
    unfold item
    rw [treeMap_comp]
    refine treeMapM_map hz fun p hp w hw => ?_
    obtain ⟨r, hr⟩ := confP_leaves htc p hp
    obtain ⟨z', h1, _, h3⟩ := hleaf r p.1 p.2 hr.1.1 hr.1.2 hr.2
    rw [h1] at hw
    cases hw
    rw [h3 j hj, if_neg hs]

/-- **C46, `where`** with a condition that has one trailing axis of length 1 for every intrinsic axis of the fields (in particular a condition of
the batch shape when the fields are scalars), its leading axes broadcasting to the batch: record `j` of the result is record `j` of `x` or of `y`, as the
condition for `j` says. -/
theorem where_records_partial {b bc : List Nat} {c : Cls α} {x y : Tree α} {cond : NArr Bool} {m : Nat} (hx : Conf b c x) (hm : IntrinsicRank m c x)
    (hy : Conf b c y) (hc : cond.shape = bc ++ List.replicate m 1) (hbc : Bcast bc b) :
    ∃ z, whereInst cond x y = some z ∧ Conf b c z ∧ ∀ j, InB b j →
      item j z = if cond.get (bcastSrc bc j ++ List.replicate m 0) then item j x else item j y := by
  refine where_general (G := fun r => r.length = m) (sel := fun j => cond.get (bcastSrc bc j ++ List.replicate m 0)) hx hm hy fun r hr => ?_
  subst hr
  refine ⟨_, broadcastTo_eq (by rw [hc]; exact hbc.ones r), fun j i hj hi => ?_⟩
  rw [get_ofFn _ (hj.append hi), hc, bcastSrc_ones hbc.1 hj hi]

/-- **C46, `where` with a scalar condition**: one of the instances, for every class. -/
theorem where_scalar {b : List Nat} {c : Cls α} {x y : Tree α} (hx : Conf b c x) (hy : Conf b c y) (v : Bool) :
    whereInst ⟨[], [v]⟩ x y = some (if v then x else y) := by
  obtain ⟨z, h1, h2, h3⟩ := where_general (cond := ⟨[], [v]⟩) (G := fun _ => True) (sel := fun _ => v) hx (confP_imp hx fun _ _ _ => trivial) hy fun r _ =>
    ⟨_, broadcastTo_scalar v _, fun j i hj hi => get_ofFn _ (hj.append hi)⟩
  rw [h1]
  congr 1
  cases v with
  | true => exact conf_ext h2 hx fun j hj => by rw [h3 j hj]; rfl
  | false => exact conf_ext h2 hy fun j hj => by rw [h3 j hj]; rfl

/-- A condition of the batch shape is **not** applied per record when a field has intrinsic axes: it is aligned with the last axis of the field.
Here the scalar field is selected per record, but both vectors are mixtures; with three records the call raises. -/
theorem where_batch_condition_false :
    whereInst ⟨[2], [true, false]⟩ demoSetX (.leaf "a" ⟨[2], [11, 12]⟩ (.leaf "v" ⟨[2, 2], [13, 14, 15, 16]⟩ .nil)) =
      some (.leaf "a" ⟨[2], [1, 12]⟩ (.leaf "v" ⟨[2, 2], [3, 14, 5, 16]⟩ .nil)) ∧
    whereInst ⟨[3], [true, false, true]⟩ (.leaf "v" ⟨[3, 2], [1, 2, 3, 4, 5, 6]⟩ .nil) (.leaf "v" ⟨[3, 2], [1, 2, 3, 4, 5, 6]⟩ .nil) =
      (none : Option (Tree Nat)) := by
  constructor <;> decide +kernel

/-- Non-trivial case: two records, vector fields only, condition of shape `(2, 1)`. -/
example : whereInst ⟨[2, 1], [true, false]⟩ (.leaf "v" ⟨[2, 2], [3, 4, 5, 6]⟩ .nil) (.leaf "v" ⟨[2, 2], [13, 14, 15, 16]⟩ .nil) =
    some (.leaf "v" ⟨[2, 2], [3, 4, 15, 16]⟩ .nil : Tree Nat) ∧ Bcast [2] [2] := by
  refine ⟨?_, Bcast.refl _⟩
  decide +kernel

/-- **`where_no_broadcast` with a condition instance**: a record whose conditions are all true is taken from `x`, one whose conditions are all
false from `y`. -/
theorem where_no_broadcast_records {b : List Nat} {c : Cls α} {x y : Tree α} {cond : Inst (NArr Bool)} (hx : Conf b c x) (hy : Conf b c y)
    (hc : ConfP (fun r (a : NArr Bool) => a.Wf ∧ a.shape = b ++ r) [] c cond) :
    ∃ z, whereNoBroadcastInst cond x y = some z ∧ Conf b c z ∧ ∀ j, InB b j →
      ((∀ a ∈ leaves cond, ∀ i, InB a.shape (j ++ i) → a.get (j ++ i) = true) → item j z = item j x) ∧
      ((∀ a ∈ leaves cond, ∀ i, InB a.shape (j ++ i) → a.get (j ++ i) = false) → item j z = item j y) := by
  obtain ⟨t, ht, htc⟩ := confP_zip hx hy
  obtain ⟨s, hs, hsc⟩ := confP_zip hc htc
  have hleaf : ∀ (r : List Nat) (p : NArr Bool × NArr α × NArr α), ((p.1.Wf ∧ p.1.shape = b ++ r) ∧ (p.2.1.Wf ∧ p.2.1.shape = b ++ r) ∧ p.2.2.Wf ∧ p.2.2.shape = b ++ r) →
      whereStrict p.1 p.2.1 p.2.2 = some (whereSame p.1 p.2.1 p.2.2) := fun r p hp => by
    unfold whereStrict
    rw [if_neg (by rw [hp.1.2, hp.2.1.2]; simp), if_neg (by rw [hp.2.1.2, hp.2.2.2]; simp)]
  obtain ⟨z, hz, hzc⟩ := confP_mapM (f := fun p : NArr Bool × NArr α × NArr α => whereStrict p.1 p.2.1 p.2.2)
    (Q := fun r (a : NArr α) => a.Wf ∧ a.shape = b ++ r) hsc fun r p hp => ⟨_, hleaf r p hp, ofFn_wf _ _, hp.2.1.2⟩
  obtain ⟨p1, p2⟩ := zip_proj hs
  obtain ⟨q1, q2⟩ := zip_proj ht
  refine ⟨z, by unfold whereNoBroadcastInst; rw [ht]; simp only [Option.bind_some]; rw [hs]; exact hz, hzc, fun j hj => ⟨fun hall => ?_, fun hall => ?_⟩⟩
  · rw [← q1, ← p2]
    unfold item
    rw [treeMap_comp, treeMap_comp]
    refine treeMapM_map hz fun p hp w hw => ?_
    obtain ⟨r, hr⟩ := confP_leaves hsc p hp
    rw [hleaf r p hr] at hw
    cases hw
    have hpm : p.1 ∈ leaves cond := by rw [← p1, leaves_treeMap]; exact List.mem_map.2 ⟨p, hp, rfl⟩
    unfold whereSame
    rw [hr.2.1.2, sub_ofFn _ hj, sub_eq hr.2.1.2 hj]
    exact ofFn_congr fun i hi => by rw [hall p.1 hpm i (by rw [hr.1.2]; exact hj.append hi), if_pos rfl]
  · rw [← q2, ← p2]
    unfold item
    rw [treeMap_comp, treeMap_comp]
    refine treeMapM_map hz fun p hp w hw => ?_
    obtain ⟨r, hr⟩ := confP_leaves hsc p hp
    rw [hleaf r p hr] at hw
    cases hw
    have hpm : p.1 ∈ leaves cond := by rw [← p1, leaves_treeMap]; exact List.mem_map.2 ⟨p, hp, rfl⟩
    unfold whereSame
    rw [hr.2.1.2, sub_ofFn _ hj, sub_eq hr.2.2.2 hj]
    exact ofFn_congr fun i hi => by rw [hall p.1 hpm i (by rw [hr.1.2]; exact hj.append hi), if_neg (by simp)]

/-- Never silently broadcasts: an array condition whose shape is not that of every field raises. -/
theorem where_no_broadcast_raises {cond : NArr Bool} {x y : Tree α} (h : ∃ a ∈ leaves x, a.shape ≠ cond.shape) : whereNoBroadcast cond x y = none := by
  unfold whereNoBroadcast
  cases ht : zip x y with
  | none => rfl
  | some t =>
    simp only [Option.bind_some]
    obtain ⟨a, ha, hne⟩ := h
    have p1 := (zip_proj ht).1
    rw [← p1, leaves_treeMap] at ha
    obtain ⟨p, hp, rfl⟩ := List.mem_map.1 ha
    have hnone : whereStrict cond p.1 p.2 = none := by unfold whereStrict; rw [if_pos fun e => hne e.symm]
    clear ht p1 ha
    induction t with
    | nil => cases hp
    | leaf n v rest ih =>
      rcases List.mem_cons.1 hp with rfl | hp
      · simp only [treeMapM, hnone, Option.bind_none]
      · simp only [treeMapM, ih hp, Option.map_none, Option.bind_fun_none]
    | nested n s rest ih1 ih2 =>
      rcases List.mem_append.1 hp with hp | hp
      · simp only [treeMapM, ih1 hp, Option.bind_none]
      · simp only [treeMapM, ih2 hp, Option.map_none, Option.bind_fun_none]

/-! ## `update_on_condition` -/

theorem rows_getElem? {a : NArr α} {k n : Nat} {s : List Nat} (hs : a.shape = n :: s) (hk : k < n) : (rows a)[k]? = some (sub [k] a) := by
  unfold rows
  rw [hs, List.headD_cons, List.getElem?_map, List.getElem?_range hk]
  rfl

theorem rows_length {a : NArr α} {n : Nat} {s : List Nat} (hs : a.shape = n :: s) : (rows a).length = n := by
  unfold rows
  rw [hs]
  simp

theorem updateLeaf_spec {a v : NArr α} {n : Nat} {b bv r : List Nat} {idx : List Int} {cond : List Bool} {ord : List Nat} (ha : a.Wf)
    (hs : a.shape = (n :: b) ++ r) (hv : v.shape = bv ++ r) (hbc : Bcast bv (cond.length :: b)) (hi : cond.length = idx.length)
    (ho : ord.Perm (List.range cond.length)) :
    ∃ z, updateLeaf idx cond ord a v = some z ∧ (z.Wf ∧ z.shape = (n :: b) ++ r) ∧ ∀ i u, i < n → InB b u →
      (∀ k, Update.FirstHit idx cond i k → sub (i :: u) z = sub (bcastSrc bv (k :: u)) v) ∧
      ((∀ k, ¬ Update.FirstHit idx cond i k) → sub (i :: u) z = sub (i :: u) a) := by
  unfold updateLeaf
  by_cases h0 : cond.length = 0
  · rw [if_pos h0]
    refine ⟨a, rfl, ⟨ha, hs⟩, fun i u _ _ => ⟨fun k hk => ?_, fun _ => rfl⟩⟩
    have := hk.1.1
    rw [List.getElem?_eq_none (by omega)] at this
    cases this
  · rw [if_neg h0, if_neg (by rw [hs]; simp)]
    obtain ⟨w, w1, w2, w3, w4⟩ := broadcastTo_rows hv hbc
    have htl : cond.length :: a.shape.tail = (cond.length :: b) ++ r := by rw [hs]; rfl
    rw [htl, w1]
    simp only [Option.bind_some]
    have hwl := rows_length (a := w) (n := cond.length) (s := b ++ r) w3
    have hal := rows_length (a := a) (n := n) (s := b ++ r) hs
    obtain ⟨ys, h1, h2, h3⟩ := Update.update_first_true_wins (rows a) (values := rows w) hi hwl.symm ho
    rw [h1]
    refine ⟨_, rfl, ⟨ofFn_wf _ _, hs⟩, fun i u hin hu => ?_⟩
    rw [hal] at h3
    have hrow : ∀ (y : NArr α), ys[i]? = some y → y.Wf → y.shape = b ++ r → sub (i :: u) (ofRows a.shape ys) = sub u y := by
      intro y hy hyw hys
      unfold ofRows
      have hiu : InB (n :: b) (i :: u) := ⟨hin, hu⟩
      rw [hs, sub_ofFn _ hiu, sub_eq hys hu]
      refine ofFn_congr fun q hq => ?_
      simp only [List.cons_append, List.headD_cons, List.tail_cons]
      rw [List.getD_eq_getElem?_getD, hy, Option.getD_some]
    have hone : ∀ {k m : Nat}, k < m → InB [m] [k] := fun h => ⟨h, trivial⟩
    constructor
    · intro k hk
      have hkm : k < cond.length := (List.getElem?_eq_some_iff.1 hk.1.1).1
      have hy := (h3 i hin).1 k hk
      rw [rows_getElem? (a := w) (s := b ++ r) w3 hkm] at hy
      rw [hrow _ hy (sub_wf _ _) (by rw [sub_shape, w3]; rfl),
        sub_sub (b := [cond.length]) (c := b) (r := r) (by rw [w3]; rfl) (hone hkm) hu]
      exact w4 (k :: u) ⟨hkm, hu⟩
    · intro hno
      have hy := (h3 i hin).2 hno
      rw [rows_getElem? (s := b ++ r) hs hin] at hy
      rw [hrow _ hy (sub_wf _ _) (by rw [sub_shape, hs]; rfl), sub_sub (b := [n]) (c := b) (r := r) (by rw [hs]; rfl) (hone hin) hu]
      rfl

/-- Leafwise reasoning about `update_on_condition`. -/
theorem updateOnCondition_leafwise {P Q S : List Nat → NArr α → Prop} {g h : NArr α → NArr α} {side : Bool} {ord : List String → List Nat} {idx : List Int}
    {cond : List Bool} {c : Cls α} {e : List Nat} {pre : List String} {x v : Tree α} (hx : ConfP P e c x) (hv : ConfP Q e c v)
    (hl : ∀ p r a w, P r a → Q r w → ∃ z, updateLeaf idx cond (ord p) a w = some z ∧ S r z ∧ g z = (if side then h w else h a)) :
    ∃ z, updateOnCondition ord idx cond pre x v = some z ∧ setAsCondition ord idx cond pre x v = z ∧ ConfP S e c z ∧
      treeMap g z = treeMap h (if side then v else x) := by
  induction x generalizing c e pre v with
  | nil =>
    cases c with
    | nil =>
      cases v with
      | nil => exact ⟨.nil, rfl, rfl, trivial, by cases side <;> rfl⟩
      | leaf => exact hv.elim
      | nested => exact hv.elim
    | leaf => exact hx.elim
    | nested => exact hx.elim
  | leaf n a rest ih =>
    cases c with
    | nil => exact hx.elim
    | nested => exact hx.elim
    | leaf n0 ish f cr =>
      cases v with
      | nil => exact hv.elim
      | nested => exact hv.elim
      | leaf n' w rest' =>
        obtain ⟨z, h1, h2, h3⟩ := hl (pre ++ [n]) _ a w hx.2.1 hv.2.1
        obtain ⟨zr, i1, i2, i3, i4⟩ := ih (pre := pre) hx.2.2 hv.2.2
        have hn : n = n' := hx.1.symm.trans hv.1
        refine ⟨.leaf n z zr, ?_, ?_, ⟨hx.1, h2, i3⟩, ?_⟩
        · simp only [updateOnCondition, if_pos hn, h1, i1, Option.bind_some, Option.map_some]
        · simp only [setAsCondition, h1, i2, Option.getD_some]
        · simp only [treeMap]
          rw [i4, h3]
          cases side <;> simp [treeMap, hn]
  | nested n s rest ih1 ih2 =>
    cases c with
    | nil => exact hx.elim
    | leaf => exact hx.elim
    | nested n0 ish cs cr =>
      cases v with
      | nil => exact hv.elim
      | leaf => exact hv.elim
      | nested n' s' rest' =>
        obtain ⟨zs, j1, j2, j3, j4⟩ := ih1 (pre := pre ++ [n]) hx.2.1 hv.2.1
        obtain ⟨zr, i1, i2, i3, i4⟩ := ih2 (pre := pre) hx.2.2 hv.2.2
        have hn : n = n' := hx.1.symm.trans hv.1
        refine ⟨.nested n zs zr, ?_, ?_, ⟨hx.1, j3, i3⟩, ?_⟩
        · simp only [updateOnCondition, if_pos hn, j1, i1, Option.bind_some, Option.map_some]
        · simp only [setAsCondition, j2, i2]
        · simp only [treeMap]
          rw [i4, j4]
          cases side <;> simp [treeMap, hn]

/-- **C45/C46, `update_on_condition` and `x.at[indices].set_as_condition(condition, v)` on instances.**  For every class, batch of `n` records, index
array, condition and values broadcasting to one value per update: record `i` of the result is the value of the first update with a true condition and
index `i` (the same update in every field), and the old record if there is none.  Both functions give the same instance. -/
theorem update_records {n : Nat} {b bv : List Nat} {c : Cls α} {x v : Tree α} {idx : List Int} {cond : List Bool} {ord : List String → List Nat}
    (hx : Conf (n :: b) c x) (hv : Conf bv c v) (hbc : Bcast bv (cond.length :: b)) (hi : cond.length = idx.length)
    (ho : ∀ p, (ord p).Perm (List.range cond.length)) :
    ∃ z, updateOnCondition ord idx cond [] x v = some z ∧ setAsCondition ord idx cond [] x v = z ∧ Conf (n :: b) c z ∧ ∀ i u, i < n → InB b u →
      (∀ k, Update.FirstHit idx cond i k → item (i :: u) z = item (bcastSrc bv (k :: u)) v) ∧
      ((∀ k, ¬ Update.FirstHit idx cond i k) → item (i :: u) z = item (i :: u) x) := by
  obtain ⟨z, h1, h2, h3, _⟩ := updateOnCondition_leafwise (g := fun _ => default) (h := fun _ => default) (side := false)
    (S := fun r (a : NArr α) => a.Wf ∧ a.shape = (n :: b) ++ r) (idx := idx) (cond := cond) (ord := ord) (pre := []) hx hv fun p r a w ha hw => by
      obtain ⟨z, g1, g2, _⟩ := updateLeaf_spec (idx := idx) ha.1 ha.2 hw.2 hbc hi (ho p)
      exact ⟨z, g1, g2, by simp⟩
  refine ⟨z, h1, h2, h3, fun i u hin hu => ⟨fun k hk => ?_, fun hno => ?_⟩⟩
  · obtain ⟨z', g1, _, _, g4⟩ := updateOnCondition_leafwise (g := sub (i :: u)) (h := sub (bcastSrc bv (k :: u))) (side := true)
      (S := fun _ _ => True) (idx := idx) (cond := cond) (ord := ord) (pre := []) hx hv fun p r a w ha hw => by
        obtain ⟨z, g1, _, g3⟩ := updateLeaf_spec (idx := idx) ha.1 ha.2 hw.2 hbc hi (ho p)
        exact ⟨z, g1, trivial, by simpa using (g3 i u hin hu).1 k hk⟩
    rw [h1] at g1
    cases g1
    exact g4
  · obtain ⟨z', g1, _, _, g4⟩ := updateOnCondition_leafwise (g := sub (i :: u)) (h := sub (i :: u)) (side := false)
      (S := fun _ _ => True) (idx := idx) (cond := cond) (ord := ord) (pre := []) hx hv fun p r a w ha hw => by
        obtain ⟨z, g1, _, g3⟩ := updateLeaf_spec (idx := idx) ha.1 ha.2 hw.2 hbc hi (ho p)
        exact ⟨z, g1, trivial, by simpa using (g3 i u hin hu).2 hno⟩
    rw [h1] at g1
    cases g1
    exact g4

/-- Non-trivial case: two updates of record 1 (the first true one wins), one out of range. -/
example : updateOnCondition (fun _ => [0, 1, 2, 3]) [1, 1, 1, 5] [false, true, true, true] [] demoSetX
    (.leaf "a" ⟨[4], [20, 21, 22, 23]⟩ (.leaf "v" ⟨[4, 2], [30, 31, 32, 33, 34, 35, 36, 37]⟩ .nil)) = some (.leaf "a" ⟨[2], [1, 21]⟩ (.leaf "v" ⟨[2, 2], [3, 4, 32, 33]⟩ .nil)) ∧
    Update.FirstHit [1, 1, 1, 5] [false, true, true, true] 1 1 := by
  refine ⟨by decide +kernel, ⟨rfl, rfl⟩, fun k hk => ?_⟩
  have : k = 0 := by omega
  subst this
  simp

end SoA
