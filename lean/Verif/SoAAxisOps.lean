import Verif.SoAMove

/-!
# C52: axis operations on dataclass instances rearrange whole records
-/

namespace SoA

open Agg NArr

variable {α : Type} [Inhabited α]

theorem rearranges_inst {G : List Nat → Prop} {b b' : List Nat} {σ : List Nat → List Nat} {f : NArr α → Option (NArr α)} {c : Cls α} {x : Tree α}
    (hf : Rearranges G b b' σ f) (hne : ∃ r, G r) (h : Conf b c x) (hG : ConfP (fun r (_ : NArr α) => G r) [] c x) :
    ∃ z, treeMapM f x = some z ∧ Conf b' c z ∧ ∀ j, InB b' j → InB b (σ j) ∧ item j z = item (σ j) x := by
  have hc := confP_and h hG
  obtain ⟨z, hz, hzc⟩ := confP_mapM (f := f) (Q := fun r (a : NArr α) => a.Wf ∧ a.shape = b' ++ r) hc fun r a ha => by
    obtain ⟨w, h1, h2, h3, _⟩ := hf r a ha.2 ha.1.1 ha.1.2
    exact ⟨w, h1, h2, h3⟩
  refine ⟨z, hz, hzc, fun j hj => ⟨?_, ?_⟩⟩
  · obtain ⟨r, hr⟩ := hne
    obtain ⟨_, _, _, _, h4⟩ := hf r (ofFn (b ++ r) fun _ => default) hr (ofFn_wf _ _) rfl
    exact (h4 j hj).1
  · refine treeMapM_map hz fun a ha w hw => ?_
    obtain ⟨r, ⟨g1, g2⟩, g3⟩ := confP_leaves hc a ha
    obtain ⟨w', h1, _, _, h4⟩ := hf r a g3 g1 g2
    rw [h1] at hw
    cases hw
    exact (h4 j hj).2

omit [Inhabited α] in
theorem conf_true {b : List Nat} {c : Cls α} {x : Tree α} (h : Conf b c x) : ConfP (fun _ (_ : NArr α) => True) [] c x := confP_imp h fun _ _ _ => trivial

theorem rearranges_any {b b' : List Nat} {σ : List Nat → List Nat} {f : NArr α → Option (NArr α)} {c : Cls α} {x : Tree α}
    (hf : Rearranges (fun _ => True) b b' σ f) (h : Conf b c x) :
    ∃ z, treeMapM f x = some z ∧ Conf b' c z ∧ ∀ j, InB b' j → InB b (σ j) ∧ item j z = item (σ j) x :=
  rearranges_inst hf ⟨[], trivial⟩ h (conf_true h)

/-! ## `flip` -/

/-- **C52, `flip`.**  Reversing batch axes `ks`: position `i` of the result along such an axis holds the record from the other end, all fields of it. -/
theorem flip_records {b ks : List Nat} {c : Cls α} {x : Tree α} (h : Conf b c x) (hks : ∀ k ∈ ks, k < b.length) (hn : ks.Nodup) :
    ∃ z, flip x (some (ks.map Int.ofNat)) = some z ∧ Conf b c z ∧ ∀ j, InB b j →
      item j z = item ((List.range b.length).map fun i => if i ∈ ks then b.getD i 0 - 1 - j.getD i 0 else j.getD i 0) x := by
  obtain ⟨z, h1, h2, h3⟩ := rearranges_any (flip_rearranges _ hks hn) h
  exact ⟨z, h1, h2, fun j hj => (h3 j hj).2⟩

/-- Flipping twice changes nothing. -/
theorem flip_flip {b ks : List Nat} {c : Cls α} {x : Tree α} (h : Conf b c x) (hks : ∀ k ∈ ks, k < b.length) (hn : ks.Nodup) :
    (flip x (some (ks.map Int.ofNat))).bind (fun z => flip z (some (ks.map Int.ofNat))) = some x := by
  obtain ⟨z, h1, h2, h3⟩ := rearranges_any (flip_rearranges _ hks hn) h
  obtain ⟨w, g1, g2, g3⟩ := rearranges_any (flip_rearranges _ hks hn) h2
  show (treeMapM _ x).bind _ = _
  rw [h1]
  show treeMapM _ z = _
  rw [g1]
  congr 1
  refine conf_ext g2 h fun j hj => ?_
  have hj' := flipSrc_inB (ks := ks) hj
  rw [(g3 j hj).2, (h3 _ hj').2]
  congr 1
  apply ext_getD (by rw [((flipSrc_inB hj')).length, hj.length])
  intro i hi
  have hi' : i < b.length := by rw [← hj.length]; exact hi
  have := inB_getD hj hi'
  unfold flipSrc
  rw [getD_map_range hi', getD_map_range hi']
  by_cases hik : i ∈ ks
  · rw [if_pos hik, if_pos hik]; omega
  · rw [if_neg hik, if_neg hik]

/-! ## `roll` -/

/-- **C52, `roll`.**  With the shift and axis arguments paired up as numpy does (`ps`: pairs of a shift and a batch axis): record `j` of the result is the record
whose position plus the shifts is `j`, cyclically. -/
theorem roll_records {b : List Nat} {c : Cls α} {x : Tree α} {ps : List (Int × Nat)} {shifts : List Int} {axes : List Nat} (h : Conf b c x)
    (hps : ∀ p ∈ ps, p.2 < b.length)
    (ha : (shifts = ps.map (·.1) ∧ axes = ps.map (·.2)) ∨ (∃ s, shifts = [s] ∧ ps = axes.map fun k => (s, k)) ∨ (∃ k, axes = [k] ∧ ps = shifts.map fun s => (s, k))) :
    ∃ z, roll x shifts (some (axes.map Int.ofNat)) = some z ∧ Conf b c z ∧ ∀ j, InB b j →
      item j z = item ((List.range b.length).map fun i => (((j.getD i 0 : Int) - ((ps.filter fun p => p.2 == i).map (·.1)).sum) % (b.getD i 0 : Int)).toNat) x := by
  have hpair : pairUp shifts (axes.map Int.ofNat) = some (ps.map fun p => (p.1, (p.2 : Int))) := by
    unfold pairUp
    rcases ha with ⟨rfl, rfl⟩ | ⟨s, rfl, rfl⟩ | ⟨k, rfl, rfl⟩
    · rw [if_pos (by simp), List.map_map, List.zip_map']
      rfl
    · by_cases hl : axes.length = 1
      · rw [if_pos (by simp [hl])]
        obtain ⟨k, rfl⟩ := List.length_eq_one_iff.1 hl
        rfl
      · rw [if_neg (by simpa using fun hh => hl hh.symm), if_pos (by simp)]
        simp
    · by_cases hl : shifts.length = 1
      · rw [if_pos (by simp [hl])]
        obtain ⟨k, rfl⟩ := List.length_eq_one_iff.1 hl
        rfl
      · rw [if_neg (by simpa using hl), if_neg hl, if_pos (by simp)]
        simp
  obtain ⟨z, h1, h2, h3⟩ := rearranges_any (rolls_rearranges _ hps) h
  refine ⟨z, ?_, h2, fun j hj => (h3 j hj).2⟩
  show treeMapM (fun a => NArr.roll a shifts (some (axes.map Int.ofNat))) x = _
  have : (fun a : NArr α => NArr.roll a shifts (some (axes.map Int.ofNat))) =
      fun a => (ps.map fun p => (p.1, (p.2 : Int))).foldlM (fun a p => roll1 a p.1 p.2) a := by
    funext a
    unfold NArr.roll
    simp only
    rw [hpair, Option.bind_some]
  rw [this]
  exact h1

/-- One shift along one axis. -/
theorem roll_one {b : List Nat} {c : Cls α} {x : Tree α} {k : Nat} (s : Int) (h : Conf b c x) (hk : k < b.length) :
    ∃ z, roll x [s] (some [(k : Int)]) = some z ∧ Conf b c z ∧ ∀ j, InB b j →
      item (j.set k (((j.getD k 0 : Int) + s) % (b.getD k 0 : Int)).toNat) z = item j x := by
  obtain ⟨z, h1, h2, h3⟩ := rearranges_any (roll1_rearranges _ s hk) h
  refine ⟨z, ?_, h2, fun j hj => ?_⟩
  · rw [← h1]
    unfold roll
    congr 1
    funext a
    unfold NArr.roll
    simp only [pairUp, List.length_cons, List.length_nil, if_true, Option.bind_some, List.zip_cons_cons, List.zip_nil_right, List.foldlM_cons, List.foldlM_nil]
    cases roll1 a s (k : Int) <;> rfl
  · have hjb := inB_getD hj hk
    have p1 := Int.emod_nonneg ((j.getD k 0 : Int) + s) (b := (b.getD k 0 : Int)) (by omega)
    have p2 := Int.emod_lt_of_pos ((j.getD k 0 : Int) + s) (b := (b.getD k 0 : Int)) (by omega)
    have hin : InB b (j.set k (((j.getD k 0 : Int) + s) % (b.getD k 0 : Int)).toNat) := by
      have := inB_set (ax := k) (d := b.getD k 0) (i := (((j.getD k 0 : Int) + s) % (b.getD k 0 : Int)).toNat) hj (by omega)
      rwa [set_getD_self] at this
    rw [(h3 _ hin).2, List.set_set, getD_set_eq (by rw [hj.length]; exact hk), Int.toNat_of_nonneg p1, Int.emod_sub_emod, Int.add_sub_cancel,
      Int.emod_eq_of_lt (by omega) (by omega), Int.toNat_natCast, set_getD_self]

/-! ## `rot90` -/

/-- **C52, `rot90`.**  In the plane of two batch axes `p`, `q`: one rotation moves record `(i_p, i_q)` as `numpy.rot90` does on an array of records; `k` counts
modulo 4. -/
theorem rot90_records {b : List Nat} {c : Cls α} {x : Tree α} {p q : Nat} (k : Int) (h : Conf b c x) (hp : p < b.length) (hq : q < b.length) (hpq : p ≠ q) :
    ∃ z, rot90 x k (p : Int) (q : Int) = some z ∧ Conf (if k % 2 = 0 then b else (b.set p (b.getD q 0)).set q (b.getD p 0)) c z ∧
      ∀ j, InB (if k % 2 = 0 then b else (b.set p (b.getD q 0)).set q (b.getD p 0)) j →
        item j z = item (
          if k % 4 = 0 then j
          else if k % 4 = 1 then (j.set p (j.getD q 0)).set q (b.getD q 0 - 1 - j.getD p 0)
          else if k % 4 = 2 then (j.set p (b.getD p 0 - 1 - j.getD p 0)).set q (b.getD q 0 - 1 - j.getD q 0)
          else (j.set p (b.getD p 0 - 1 - j.getD q 0)).set q (j.getD p 0)) x := by
  obtain ⟨z, h1, h2, h3⟩ := rearranges_any (rot90_rearranges _ k hp hq hpq) h
  exact ⟨z, h1, h2, fun j hj => (h3 j hj).2⟩

/-! ## `repeat` -/

/-- **C52, `repeat` with one number**: every record `n` times in a row along batch axis `k`. -/
theorem repeat_all_records {b : List Nat} {c : Cls α} {x : Tree α} {k n : Nat} (h : Conf b c x) (hk : k < b.length) :
    ∃ z, repeatInst x (.all n) (some (k : Int)) = some z ∧ Conf (b.set k (b.getD k 0 * n)) c z ∧
      ∀ j t, InB b j → t < n → item (j.set k (j.getD k 0 * n + t)) z = item j x := by
  obtain ⟨z, h1, h2, h3⟩ := rearranges_any (repeat_all_rearranges _ (n := n) hk) h
  refine ⟨z, h1, h2, fun j t hj ht => ?_⟩
  have hjb := inB_getD hj hk
  have hlt : j.getD k 0 * n + t < b.getD k 0 * n := by
    have h4 := Nat.mul_le_mul_right n hjb
    rw [Nat.succ_mul] at h4
    omega
  rw [(h3 _ (inB_set hj hlt)).2, List.set_set, getD_set_eq (by rw [hj.length]; exact hk), Nat.mul_comm, Nat.mul_add_div (by omega), Nat.div_eq_of_lt ht,
    Nat.add_zero, set_getD_self]

/-- **C52, `repeat` with one number per record**: record `i` along the axis occupies `reps[i]` consecutive positions, after those of the records before it. -/
theorem repeat_each_records {b reps : List Nat} {c : Cls α} {x : Tree α} {k : Nat} (h : Conf b c x) (hk : k < b.length) (hl : reps.length = b.getD k 0) :
    ∃ z, repeatInst x (.each reps) (some (k : Int)) = some z ∧ Conf (b.set k reps.sum) c z ∧
      ∀ j t, InB b j → t < reps.getD (j.getD k 0) 0 → item (j.set k ((reps.take (j.getD k 0)).sum + t)) z = item j x := by
  have hl' : reps = if reps.length = 1 then List.replicate (b.getD k 0) (reps.getD 0 0) else reps := by
    by_cases h1 : reps.length = 1
    · rw [if_pos h1, ← hl, h1]
      obtain ⟨a, rfl⟩ := List.length_eq_one_iff.1 h1
      rfl
    · rw [if_neg h1]
  obtain ⟨z, h1, h2, h3⟩ := rearranges_any (repeat_each_rearranges _ hk hl' hl) h
  refine ⟨z, h1, h2, fun j t hj ht => ?_⟩
  have hjb := inB_getD hj hk
  have hget : reps[j.getD k 0]? = some (reps.getD (j.getD k 0) 0) := by
    rw [List.getD_eq_getElem?_getD (l := reps), List.getElem?_eq_getElem (by omega)]; rfl
  have hlt := offset_lt hget ht
  have := locate_offset hget ht
  unfold offset at this hlt
  rw [(h3 _ (inB_set hj hlt)).2, List.set_set, getD_set_eq (by rw [hj.length]; exact hk), this, set_getD_self]

/-- `repeat` with a list of one number is `repeat` with that number. -/
theorem repeat_each_one {b : List Nat} {c : Cls α} {x : Tree α} {k n : Nat} (h : Conf b c x) (hk : k < b.length) :
    repeatInst x (.each [n]) (some (k : Int)) = repeatInst x (.all n) (some (k : Int)) := by
  obtain ⟨z, h1, h2, h3⟩ := rearranges_any (repeat_each_rearranges _ (l := [n]) (l' := List.replicate (b.getD k 0) n) hk rfl (by simp)) h
  obtain ⟨z', g1, g2, g3⟩ := repeat_all_records (n := n) h hk
  rw [g1]
  show treeMapM _ x = _
  rw [h1]
  congr 1
  rw [List.sum_replicate_nat] at h2 h3
  refine conf_ext h2 g2 fun j hj => ?_
  have hjl : j.length = b.length := by rw [hj.length]; simp
  have hjb := inB_getD hj (ax := k) (by simpa using hk)
  rw [getD_set_eq hk] at hjb
  have hn : 0 < n := by
    rcases Nat.eq_zero_or_pos n with h0 | h0
    · subst h0; simp at hjb
    · exact h0
  have hq : j.getD k 0 / n < b.getD k 0 := Nat.div_lt_of_lt_mul (by rwa [Nat.mul_comm] at hjb)
  have hin := inB_set_axis hj hq
  have e1 : (j.set k (j.getD k 0 / n)).getD k 0 = j.getD k 0 / n := getD_set_eq (by omega)
  have := g3 (j.set k (j.getD k 0 / n)) (j.getD k 0 % n) hin (Nat.mod_lt _ hn)
  rw [e1, List.set_set, Nat.mul_comm, Nat.div_add_mod, set_getD_self] at this
  rw [this, (h3 j hj).2]
  congr 2
  have e2 : j.getD k 0 = offset (List.replicate (b.getD k 0) n) (j.getD k 0 / n) + j.getD k 0 % n := by
    unfold offset
    rw [List.take_replicate, List.sum_replicate_nat, Nat.min_eq_left (by omega), Nat.mul_comm, Nat.div_add_mod]
  have e3 := locate_offset (dims := List.replicate (b.getD k 0) n) (k := j.getD k 0 / n) (d := n) (i := j.getD k 0 % n)
    (by rw [List.getElem?_replicate, if_pos hq]) (Nat.mod_lt _ hn)
  rw [← e2] at e3
  rw [e3]

/-! ## `expand_dims`, `squeeze`, `moveaxis` -/

/-- **C52, `expand_dims`** at a batch position: a new batch axis of length 1. -/
theorem expand_dims_records {b : List Nat} {c : Cls α} {x : Tree α} {ax : Nat} (h : Conf b c x) (hax : ax ≤ b.length) :
    ∃ z, expandDims x (ax : Int) = some z ∧ Conf (b.take ax ++ 1 :: b.drop ax) c z ∧ ∀ j, InB b j → item (j.take ax ++ 0 :: j.drop ax) z = item j x := by
  obtain ⟨z, hz, hzc⟩ := mapM_spec (f := fun a => a.expandDims (ax : Int)) (b' := b.take ax ++ 1 :: b.drop ax) h fun r a ha hs => by
    obtain ⟨z, h1, h2, h3, _⟩ := expandDims_spec ha hs hax
    exact ⟨z, h1, h2, h3⟩
  refine ⟨z, hz, hzc, fun j hj => mapM_item h hz fun r a w ha hs hw => ?_⟩
  obtain ⟨z', h1, _, _, h4⟩ := expandDims_spec ha hs hax
  rw [h1] at hw
  cases hw
  exact h4 j hj

/-- **C52, `squeeze`** of batch axes `ks` of length 1: the records stay in order, their positions lose these axes. -/
theorem squeeze_records {b ks : List Nat} {c : Cls α} {x : Tree α} (h : Conf b c x) (hk : ∀ k ∈ ks, k < b.length) (hn : ks.Nodup)
    (h1 : ∀ k ∈ ks, b.getD k 0 = 1) :
    ∃ z, squeeze x (some (ks.map Int.ofNat)) = some z ∧ Conf (dropAxes ks b) c z ∧
      ∀ j, InB b j → InB (dropAxes ks b) (dropAxes ks j) ∧ item (dropAxes ks j) z = item j x := by
  have hleaf : ∀ r (a : NArr α), a.shape = b ++ r → a.squeeze (some (ks.map Int.ofNat)) = some ⟨dropAxes ks (b ++ r), a.data⟩ := fun r a hs => by
    unfold NArr.squeeze
    simp only
    rw [normAxes_nat (fun k hkk => by have := hk k hkk; rw [hs, List.length_append]; omega) hn, Option.bind_some, if_pos]
    · rw [hs]
    · rw [List.all_eq_true]
      intro k hkk
      rw [hs, getD_append_left' _ (hk k hkk), h1 k hkk]
      rfl
  obtain ⟨z, hz, hzc⟩ := mapM_spec (f := fun a => a.squeeze (some (ks.map Int.ofNat))) (b' := dropAxes ks b) h fun r a ha hs => by
    obtain ⟨e1, e2, _⟩ := squeeze_leaf ha hs hk h1
    exact ⟨_, hleaf r a hs, e2, e1⟩
  refine ⟨z, hz, hzc, fun j hj => ⟨?_, mapM_item h hz fun r a w ha hs hw => ?_⟩⟩
  · exact ((squeeze_leaf (a := ofFn (b ++ []) fun _ => (default : α)) (ofFn_wf _ _) rfl hk h1).2.2 j hj).1
  · rw [hleaf r a hs] at hw
    cases hw
    exact ((squeeze_leaf ha hs hk h1).2.2 j hj).2

/-- `squeeze` without axes, for classes none of whose fields has an intrinsic axis of length 1: all batch axes of length 1 are removed. -/
theorem squeeze_none_records_partial {b : List Nat} {c : Cls α} {x : Tree α} (h : Conf b c x)
    (hr : ConfP (fun r (_ : NArr α) => 1 ∉ r) [] c x) :
    ∃ z, squeeze x none = some z ∧ Conf (b.filter (· ≠ 1)) c z ∧ ∀ j, InB b j → item (dropAxes ((List.range b.length).filter fun i => b.getD i 0 == 1) j) z = item j x := by
  have hleaf : ∀ r (a : NArr α), 1 ∉ r → a.shape = b ++ r → a.Wf → a.squeeze none = some ⟨dropAxes (unitAxes b) (b ++ r), a.data⟩ := fun r a hr hs ha => by
    unfold NArr.squeeze
    simp only
    rw [hs, (squeeze_leaf ha hs (fun k hk => (unitAxes_spec hk).1) fun k hk => (unitAxes_spec hk).2).1, dropAxes_unit, List.filter_append]
    congr 3
    rw [List.filter_eq_self]
    intro d hd
    have : d ≠ 1 := fun hh => hr (hh ▸ hd)
    simpa using this
  have hc := confP_and h hr
  obtain ⟨z, hz, hzc⟩ := confP_mapM (f := fun a => a.squeeze none) (Q := fun r (a : NArr α) => a.Wf ∧ a.shape = b.filter (· ≠ 1) ++ r) hc fun r a ha => by
    obtain ⟨e1, e2, _⟩ := squeeze_leaf ha.1.1 ha.1.2 (fun k hk => (unitAxes_spec hk).1) fun k hk => (unitAxes_spec hk).2
    refine ⟨_, hleaf r a ha.2 ha.1.2 ha.1.1, e2, ?_⟩
    rw [← dropAxes_unit]
    exact e1
  refine ⟨z, hz, hzc, fun j hj => treeMapM_map hz fun a ha w hw => ?_⟩
  obtain ⟨r, ⟨g1, g2⟩, g3⟩ := confP_leaves hc a ha
  rw [hleaf r a g3 g2 g1] at hw
  cases hw
  exact ((squeeze_leaf g1 g2 (fun k hk => (unitAxes_spec hk).1) fun k hk => (unitAxes_spec hk).2).2.2 j hj).2

/-- **C52, `moveaxis`** of batch axes: the axes are reordered as `MovesTo` says, records stay whole. -/
theorem moveaxis_records {b source destination : List Nat} {c : Cls α} {x : Tree α} (h : Conf b c x)
    (hl : source.length = destination.length) (hsn : source.Nodup) (hdn : destination.Nodup)
    (hsb : ∀ s ∈ source, s < b.length) (hdb : ∀ d ∈ destination, d < b.length) :
    ∃ z order, moveaxis x (source.map Int.ofNat) (destination.map Int.ofNat) = some z ∧ MovesTo b.length source destination order ∧
      Conf (order.map fun ax => b.getD ax 0) c z ∧ ∀ k, InB b k → item (order.map fun ax => k.getD ax 0) z = item k x := by
  obtain ⟨z, hz, hzc⟩ := mapM_spec (f := fun a => a.moveaxis (source.map Int.ofNat) (destination.map Int.ofNat))
    (b' := (moveOrder b.length source destination).map fun ax => b.getD ax 0) h fun r a ha hs => by
      obtain ⟨z, h1, h2, h3, _⟩ := moveaxis_spec hs hl hsn hdn hsb hdb
      exact ⟨z, h1, h2, h3⟩
  refine ⟨z, _, hz, (moveOrder_spec hl hsn hdn hsb hdb).1, hzc, fun k hk => mapM_item h hz fun r a w ha hs hw => ?_⟩
  obtain ⟨z', h1, _, _, h4⟩ := moveaxis_spec hs hl hsn hdn hsb hdb
  rw [h1] at hw
  cases hw
  exact h4 k hk

/-! ## What does not hold: axes that are not batch axes -/

/-- Two records with a scalar field `a` and a vector field `v`. -/
def demoAxisC : Cls Nat := .leaf "a" [] (fun _ => ⟨[], [0]⟩) (.leaf "v" [2] (fun _ => ⟨[], [0]⟩) .nil)
def demoAxis : Tree Nat := .leaf "a" ⟨[2], [1, 2]⟩ (.leaf "v" ⟨[2, 2], [10, 11, 20, 21]⟩ .nil)

/-- Without an axis, and with a negative axis, the functions act on the axes of each field, including its intrinsic axes: `flip` and `roll` scramble the contents
of a record, `repeat` destroys the structure, `tile` and `squeeze` change different axes of different fields. -/
theorem intrinsic_axes_touched :
    Conf [2] demoAxisC demoAxis ∧
      flip demoAxis none = some (.leaf "a" ⟨[2], [2, 1]⟩ (.leaf "v" ⟨[2, 2], [21, 20, 11, 10]⟩ .nil)) ∧
      flip demoAxis (some [-1]) = some (.leaf "a" ⟨[2], [2, 1]⟩ (.leaf "v" ⟨[2, 2], [11, 10, 21, 20]⟩ .nil)) ∧
      roll demoAxis [1] none = some (.leaf "a" ⟨[2], [2, 1]⟩ (.leaf "v" ⟨[2, 2], [21, 10, 11, 20]⟩ .nil)) ∧
      (repeatInst demoAxis (.all 2) none).map (batchShape demoAxisC) = some (some .unstr) ∧
      batchShape demoAxisC (tile demoAxis [2]) = some .unstr ∧
      squeeze (.leaf "v" ⟨[3, 1], [1, 2, 3]⟩ .nil : Tree Nat) none = some (.leaf "v" ⟨[3], [1, 2, 3]⟩ .nil) := by
  refine ⟨⟨rfl, ⟨rfl, rfl⟩, rfl, ⟨rfl, rfl⟩, trivial⟩, ?_⟩
  decide +kernel

/-- Non-trivial cases. -/
example : flip demoAxis (some [0]) = some (.leaf "a" ⟨[2], [2, 1]⟩ (.leaf "v" ⟨[2, 2], [20, 21, 10, 11]⟩ .nil)) ∧
    roll demoAxis [1] (some [0]) = some (.leaf "a" ⟨[2], [2, 1]⟩ (.leaf "v" ⟨[2, 2], [20, 21, 10, 11]⟩ .nil)) ∧
    repeatInst demoAxis (.each [2, 1]) (some 0) = some (.leaf "a" ⟨[3], [1, 1, 2]⟩ (.leaf "v" ⟨[3, 2], [10, 11, 10, 11, 20, 21]⟩ .nil)) ∧
    repeatInst demoAxis (.all 2) (some 0) = some (.leaf "a" ⟨[4], [1, 1, 2, 2]⟩ (.leaf "v" ⟨[4, 2], [10, 11, 10, 11, 20, 21, 20, 21]⟩ .nil)) ∧
    expandDims demoAxis 0 = some (.leaf "a" ⟨[1, 2], [1, 2]⟩ (.leaf "v" ⟨[1, 2, 2], [10, 11, 20, 21]⟩ .nil)) ∧
    (expandDims demoAxis 1).bind (fun z => squeeze z (some [1])) = some demoAxis ∧
    rot90 demo6 1 0 1 = some (.leaf "a" ⟨[3, 2], [2, 5, 1, 4, 0, 3]⟩ (.leaf "v" ⟨[3, 2, 2], [4, 5, 10, 11, 2, 3, 8, 9, 0, 1, 6, 7]⟩ .nil)) ∧
    moveaxis demo6 [0] [1] = transposeInst demoSetC demo6 none ∧ roll demo6 [1, -1] (some [0, 1]) = roll demo6 [-5, 2] (some [0, 1]) := by
  decide +kernel

end SoA
