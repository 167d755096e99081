import Verif.SoAShape

/-!
# C46: indexing and `at[…].set` act on records
-/

namespace NArr

variable {α : Type} [Inhabited α]

/-! ## Broadcasting -/

/-- `s` can be broadcast to `t`. -/
def Bcast (s t : List Nat) : Prop := s.length ≤ t.length ∧ bcastDims s (t.drop (t.length - s.length)) = true

theorem bcastDims_refl (s : List Nat) : bcastDims s s = true := by
  induction s with
  | nil => rfl
  | cons d s ih => simp [bcastDims, ih]

theorem Bcast.refl (s : List Nat) : Bcast s s := ⟨Nat.le_refl _, by simp [bcastDims_refl]⟩

theorem Bcast.nil (t : List Nat) : Bcast [] t := ⟨Nat.zero_le _, by simp [bcastDims]⟩

theorem bcastDims_append {s t : List Nat} (h : bcastDims s t = true) (r : List Nat) : bcastDims (s ++ r) (t ++ r) = true := by
  induction s generalizing t with
  | nil =>
    cases t with
    | nil => exact bcastDims_refl r
    | cons => simp [bcastDims] at h
  | cons d s ih =>
    cases t with
    | nil => simp [bcastDims] at h
    | cons e t =>
      simp only [bcastDims, Bool.and_eq_true, List.cons_append] at h ⊢
      exact ⟨h.1, ih h.2⟩

theorem Bcast.append {s t : List Nat} (h : Bcast s t) (r : List Nat) : Bcast (s ++ r) (t ++ r) := by
  refine ⟨by simp only [List.length_append]; have := h.1; omega, ?_⟩
  have e : (t ++ r).length - (s ++ r).length = t.length - s.length := by simp only [List.length_append]; omega
  rw [e, List.drop_append, show t.length - s.length - t.length = 0 by omega, List.drop_zero]
  exact bcastDims_append h.2 r

theorem bcastSrc_inB {s t k : List Nat} (h : Bcast s t) (hk : InB t k) : InB s (bcastSrc s k) := by
  have hk2 : InB (t.drop (t.length - s.length)) (k.drop (k.length - s.length)) := by
    rw [hk.length]
    have := (InB.split (s := t.take (t.length - s.length)) (t := t.drop (t.length - s.length)) (k := k) (by rw [List.take_append_drop]; exact hk)).2
    rw [List.length_take, Nat.min_eq_left (by omega)] at this
    exact this
  unfold bcastSrc
  have h2 := h.2
  generalize t.drop (t.length - s.length) = t' at hk2 h2
  generalize k.drop (k.length - s.length) = k' at hk2
  clear h hk
  induction s generalizing t' k' with
  | nil => trivial
  | cons d s ih =>
    cases t' with
    | nil => simp [bcastDims] at h2
    | cons e t' =>
      cases k' with
      | nil => exact hk2.elim
      | cons i k' =>
        simp only [bcastDims, Bool.and_eq_true, Bool.or_eq_true, beq_iff_eq] at h2
        simp only [List.zipWith_cons_cons]
        refine ⟨?_, ih _ h2.2 _ hk2.2⟩
        have := hk2.1
        split <;> omega

theorem bcastSrc_self {r i : List Nat} (h : InB r i) : bcastSrc r i = i := by
  unfold bcastSrc
  rw [h.length, Nat.sub_self, List.drop_zero]
  induction r generalizing i with
  | nil =>
    cases i with
    | nil => rfl
    | cons => exact h.elim
  | cons d r ih =>
    cases i with
    | nil => exact h.elim
    | cons a i =>
      simp only [List.zipWith_cons_cons]
      rw [ih h.2]
      have := h.1
      congr 1
      split <;> omega

theorem bcastSrc_append {s t r k i : List Nat} (h : s.length ≤ t.length) (hk : InB t k) (hi : InB r i) :
    bcastSrc (s ++ r) (k ++ i) = bcastSrc s k ++ i := by
  have e : (k ++ i).length - (s ++ r).length = k.length - s.length := by
    simp only [List.length_append, hi.length]; omega
  have hself : List.zipWith (fun d k => if d = 1 then 0 else k) r i = i := by
    have := bcastSrc_self hi
    unfold bcastSrc at this
    rwa [hi.length, Nat.sub_self, List.drop_zero] at this
  unfold bcastSrc
  rw [e, List.drop_append, show k.length - s.length - k.length = 0 by omega, List.drop_zero,
    List.zipWith_append (by rw [List.length_drop, hk.length]; omega), hself]

theorem broadcastTo_eq {a : NArr α} {t : List Nat} (h : Bcast a.shape t) :
    broadcastTo a t = some (ofFn t fun i => a.get (bcastSrc a.shape i)) := if_pos h

theorem broadcastTo_self {a : NArr α} (ha : a.Wf) : broadcastTo a a.shape = some a := by
  rw [broadcastTo_eq (Bcast.refl _)]
  congr 1
  have h1 : (ofFn a.shape fun i => a.get (bcastSrc a.shape i)) = ofFn a.shape a.get :=
    ofFn_congr fun i hi => by rw [bcastSrc_self hi]
  rw [h1, ofFn_get ha]

/-- Broadcasting the leading axes keeps the trailing entries together. -/
theorem broadcastTo_rows {a : NArr α} {s t r : List Nat} (hs : a.shape = s ++ r) (h : Bcast s t) :
    ∃ w, broadcastTo a (t ++ r) = some w ∧ w.Wf ∧ w.shape = t ++ r ∧ ∀ k, InB t k → sub k w = sub (bcastSrc s k) a := by
  refine ⟨_, broadcastTo_eq (by rw [hs]; exact h.append r), ofFn_wf _ _, rfl, fun k hk => ?_⟩
  rw [sub_ofFn _ hk, sub_eq hs (bcastSrc_inB h hk)]
  exact ofFn_congr fun i hi => by rw [hs, bcastSrc_append h.1 hk hi]

/-! ## Resolving an index -/

theorem arange_up {a b s : Int} (hs : 0 < s) {k : Nat} (hk : k < ((b - a + s - 1) / s).toNat) : a ≤ a + k * s ∧ a + k * s < b := by
  have hk2 : (k : Int) < (b - a + s - 1) / s := by omega
  have h1 := Int.mul_ediv_self_le (x := b - a + s - 1) (k := s) (by omega)
  have h2 : s * ((k : Int) + 1) ≤ s * ((b - a + s - 1) / s) := Int.mul_le_mul_of_nonneg_left (by omega) (by omega)
  have h3 : s * ((k : Int) + 1) = k * s + s := by rw [Int.mul_add, Int.mul_one, Int.mul_comm]
  have h4 : (0 : Int) ≤ k * s := Int.mul_nonneg (by omega) (by omega)
  omega

/-- A slice selects positions of the axis. -/
theorem sliceList_lt {d : Nat} {start stop step : Option Int} {l : List Nat} (h : sliceList d start stop step = some l) : ∀ i ∈ l, i < d := by
  unfold sliceList at h
  simp only at h
  by_cases h0 : step.getD 1 = 0
  · rw [if_pos h0] at h; cases h
  · rw [if_neg h0] at h
    simp only [Option.some.injEq] at h
    subst h
    intro i hi
    obtain ⟨k, hk, rfl⟩ := List.mem_map.1 hi
    clear hi
    rw [List.mem_range] at hk
    have hclamp : ∀ (lo hi : Int) (o : Option Int) (dflt : Int), lo ≤ dflt → dflt ≤ hi → lo ≤ hi → -1 ≤ lo → (d : Int) - 1 ≤ hi → lo ≤ 0 →
        lo ≤ ((o.map fun (x : Int) => if x < 0 then max (x + (d : Int)) lo else min x hi).getD dflt) ∧
        ((o.map fun (x : Int) => if x < 0 then max (x + (d : Int)) lo else min x hi).getD dflt) ≤ hi := by
      intro lo hi o dflt h1 h2 h3 h4 h5 h6
      cases o with
      | none => exact ⟨h1, h2⟩
      | some x =>
        simp only [Option.map_some, Option.getD_some]
        by_cases hx : x < 0
        · rw [if_pos hx]; omega
        · rw [if_neg hx]; omega
    generalize step.getD 1 = st at *
    by_cases hneg : st < 0
    · simp only [if_pos hneg] at hk ⊢
      have ha := hclamp (-1) ((d : Int) - 1) start ((d : Int) - 1) (by omega) (by omega) (by omega) (by omega) (by omega) (by omega)
      have hb := hclamp (-1) ((d : Int) - 1) stop (-1) (by omega) (by omega) (by omega) (by omega) (by omega) (by omega)
      generalize ((start.map fun (x : Int) => if x < 0 then max (x + (d : Int)) (-1) else min x ((d : Int) - 1)).getD ((d : Int) - 1)) = a at *
      generalize ((stop.map fun (x : Int) => if x < 0 then max (x + (d : Int)) (-1) else min x ((d : Int) - 1)).getD (-1)) = b at *
      have := arange_up (a := -a) (b := -b) (s := -st) (k := k) (by omega) (by rw [show -b - -a = a - b by omega]; exact hk)
      rw [Int.mul_neg] at this
      omega
    · simp only [if_neg hneg] at hk ⊢
      have ha := hclamp 0 d start 0 (by omega) (by omega) (by omega) (by omega) (by omega) (by omega)
      have hb := hclamp 0 d stop d (by omega) (by omega) (by omega) (by omega) (by omega) (by omega)
      generalize ((start.map fun (x : Int) => if x < 0 then max (x + (d : Int)) 0 else min x (d : Int)).getD 0) = a at *
      generalize ((stop.map fun (x : Int) => if x < 0 then max (x + (d : Int)) 0 else min x (d : Int)).getD (d : Int)) = b at *
      have := arange_up (a := a) (b := b) (s := st) (k := k) (by omega) hk
      omega

/-- `range(d)[lo:hi]`. -/
theorem sliceList_simple {d lo hi : Nat} (h1 : lo ≤ hi) (h2 : hi ≤ d) :
    sliceList d (some lo) (some hi) none = some ((List.range (hi - lo)).map fun k => lo + k) := by
  unfold sliceList
  simp only [Option.getD_none, Option.map_some, Option.getD_some]
  rw [if_neg (by decide)]
  have hneg : ¬ ((1 : Int) < 0) := by decide
  simp only [if_neg hneg]
  have e1 : (if (lo : Int) < 0 then max ((lo : Int) + d) 0 else min (lo : Int) d) = lo := by rw [if_neg (by omega)]; omega
  have e2 : (if (hi : Int) < 0 then max ((hi : Int) + d) 0 else min (hi : Int) d) = hi := by rw [if_neg (by omega)]; omega
  rw [e1, e2]
  have e3 : (((hi : Int) - lo + 1 - 1) / 1).toNat = hi - lo := by rw [Int.ediv_one]; omega
  rw [e3]
  congr 1
  apply List.map_congr_left
  intro k _
  omega

theorem getD_append_left' {β : Type} {b r : List β} {c : Nat} (d : β) (h : c < b.length) : (b ++ r).getD c d = b.getD c d := by
  rw [List.getD_eq_getElem?_getD, List.getD_eq_getElem?_getD, List.getElem?_append_left h]

theorem resolveBasic_append {l : List Basic} {b : List Nat} {R : Resolved} (h : resolveBasic l b = some R) (r : List Nat) :
    resolveBasic l (b ++ r) = some R ∧ R.m ≤ b.length ∧ ∀ j, (R.src j).length = R.m := by
  induction l generalizing b R with
  | nil =>
    simp only [resolveBasic, Option.some.injEq] at h
    subst h
    exact ⟨rfl, Nat.zero_le _, fun _ => rfl⟩
  | cons x l ih =>
    cases b with
    | nil => cases x <;> simp [resolveBasic] at h
    | cons d b =>
      cases x with
      | int i =>
        simp only [resolveBasic, List.cons_append] at h ⊢
        cases hr : resolveBasic l b with
        | none => rw [hr] at h; cases h
        | some R' =>
          rw [hr] at h
          simp only [Option.map_some, Option.some.injEq] at h
          subst h
          obtain ⟨h1, h2, h3⟩ := ih hr
          rw [h1]
          exact ⟨rfl, by simp only [List.length_cons]; omega, fun j => by simp [h3]⟩
      | slice a e st =>
        simp only [resolveBasic, List.cons_append] at h ⊢
        cases hl : sliceList d a e st with
        | none => rw [hl] at h; cases h
        | some sl =>
          cases hr : resolveBasic l b with
          | none => rw [hl, hr] at h; cases h
          | some R' =>
            rw [hl, hr] at h
            simp only [Option.map_some, Option.bind_some, Option.some.injEq] at h
            subst h
            obtain ⟨h1, h2, h3⟩ := ih hr
            rw [h1]
            exact ⟨rfl, by simp only [List.length_cons]; omega, fun j => by simp [h3]⟩

theorem mem_truePositions {s : List Nat} {bits : List Bool} {p : List Nat} (h : p ∈ truePositions s bits) : InB s p := by
  unfold truePositions at h
  obtain ⟨q, hq, rfl⟩ := List.mem_map.1 h
  exact mem_indices.1 (List.of_mem_zip (List.mem_filter.1 hq).1).1

/-- An index that is valid for the batch axes means the same for every field. -/
theorem resolve_append {I : Index} {b : List Nat} {R : Resolved} (h : resolve I b = some R) (r : List Nat) :
    resolve I (b ++ r) = some R ∧ R.m ≤ b.length ∧ ∀ j, InB R.out j → (R.src j).length = R.m := by
  cases I with
  | basic l =>
    obtain ⟨h1, h2, h3⟩ := resolveBasic_append h r
    exact ⟨h1, h2, fun j _ => h3 j⟩
  | adv s cols =>
    simp only [resolve] at h ⊢
    by_cases hc : cols.length ≤ b.length
    · rw [if_pos hc] at h
      cases h
      rw [if_pos (by rw [List.length_append]; omega)]
      refine ⟨?_, hc, fun j _ => by simp⟩
      congr 2
      funext j
      apply List.map_congr_left
      intro c hcm
      have := List.mem_range.1 hcm
      rw [getD_append_left' _ (by omega)]
    · rw [if_neg hc] at h; cases h
  | mask s bits =>
    simp only [resolve] at h ⊢
    by_cases hc : s.length ≤ b.length ∧ b.take s.length = s ∧ bits.length = size s
    · rw [if_pos hc] at h
      cases h
      rw [if_pos ⟨by rw [List.length_append]; omega, by rw [List.take_append_of_le_length hc.1]; exact hc.2.1, hc.2.2⟩]
      refine ⟨rfl, hc.1, fun j hj => ?_⟩
      simp only [List.length_map]
      cases j with
      | nil => exact hj.elim
      | cons q j =>
        have hq : q < (truePositions s bits).length := hj.1
        simp only [List.headD_cons]
        rw [List.getD_eq_getElem?_getD, List.getElem?_eq_getElem hq]
        exact (mem_truePositions (List.getElem_mem hq)).length
    · rw [if_neg hc] at h; cases h

theorem clampIdx_append {b r : List Nat} {t : List Int} (h : t.length ≤ b.length) : clampIdx (b ++ r) t = clampIdx b t := by
  induction b generalizing t with
  | nil =>
    cases t with
    | nil => cases r <;> rfl
    | cons => simp at h
  | cons d b ih =>
    cases t with
    | nil => rfl
    | cons i t => simp only [List.cons_append, clampIdx]; rw [ih (by simpa using h)]

theorem drop_append_le {b r : List Nat} {m : Nat} (h : m ≤ b.length) : (b ++ r).drop m = b.drop m ++ r := by
  rw [List.drop_append, Nat.sub_eq_zero_of_le h, List.drop_zero]

/-- `a[index]` for an array with leading axes `b`. -/
theorem index_spec {a : NArr α} {b r : List Nat} {I : Index} {R : Resolved} (hs : a.shape = b ++ r) (h : resolve I b = some R) :
    ∃ w, a.index I = some w ∧ w.Wf ∧ w.shape = (R.out ++ b.drop R.m) ++ r ∧
      ∀ j, InB R.out j → InB (b.take R.m) (clampIdx b (R.src j)) → sub j w = sub (clampIdx b (R.src j)) a := by
  obtain ⟨h1, h2, h3⟩ := resolve_append h r
  unfold index
  rw [hs, h1]
  refine ⟨_, rfl, ofFn_wf _ _, by rw [ofFn_shape, drop_append_le h2, List.append_assoc], fun j hj hin => ?_⟩
  simp only
  rw [drop_append_le h2, sub_ofFn _ hj, sub_eq (b := b.take R.m) (r := b.drop R.m ++ r) (by rw [hs, ← List.append_assoc, List.take_append_drop]) hin]
  refine ofFn_congr fun i _ => ?_
  rw [take_append_of_inB hj, drop_append_of_inB hj, clampIdx_append (by rw [h3 j hj]; exact h2)]

end NArr

namespace SoA

open Agg NArr

variable {α : Type} [Inhabited α]

/-- **C46, indexing.**  For every class, batch shape and index valid for the batch axes: `x[index]` is an instance whose batch shape is that
of the selection followed by the remaining batch axes, and its record `j` is the record of `x` the index selects for `j` (clamped
to the batch, as JAX does). -/
theorem getitem_records {b : List Nat} {c : Cls α} {x : Tree α} {I : Index} {R : Resolved} (h : Conf b c x) (hI : resolve I b = some R) :
    ∃ z, getitem x I = some z ∧ Conf (R.out ++ b.drop R.m) c z ∧
      ∀ j, InB R.out j → InB (b.take R.m) (clampIdx b (R.src j)) → item j z = item (clampIdx b (R.src j)) x := by
  obtain ⟨z, hz, hc⟩ := mapM_spec (f := fun a => a.index I) (b' := R.out ++ b.drop R.m) h fun r a _ hs => by
    obtain ⟨w, h1, h2, h3, _⟩ := index_spec hs hI
    exact ⟨w, h1, h2, h3⟩
  refine ⟨z, hz, hc, fun j hj hin => mapM_item h hz fun r a w _ hs hw => ?_⟩
  obtain ⟨w', h1, _, _, h4⟩ := index_spec hs hI
  rw [h1] at hw
  cases hw
  exact h4 j hj hin

/-- `x[i]` for an integer `-n ≤ i < n`: record `i`, negative indices counting from the end. -/
theorem getitem_int {n : Nat} {b : List Nat} {c : Cls α} {x : Tree α} (h : Conf (n :: b) c x) {i : Int} (h1 : -(n : Int) ≤ i) (h2 : i < n) :
    ∃ z, getitem x (.basic [.int i]) = some z ∧ Conf b c z ∧ z = item [if i < 0 then (i + n).toNat else i.toNat] x := by
  obtain ⟨z, hz, hc, hi⟩ := getitem_records h (I := .basic [.int i]) (R := ⟨[], 1, fun _ => [wrapIdx n i]⟩) rfl
  refine ⟨z, hz, hc, ?_⟩
  have hcl : clampIdx (n :: b) [wrapIdx n i] = [if i < 0 then (i + n).toNat else i.toNat] := by
    have : clampIdx (n :: b) [wrapIdx n i] = [(max 0 (min (wrapIdx n i) ((n : Int) - 1))).toNat] := by cases b <;> rfl
    rw [this]
    congr 1
    unfold wrapIdx
    by_cases hneg : i < 0
    · rw [if_pos hneg, if_pos hneg]; omega
    · rw [if_neg hneg, if_neg hneg]; omega
  have := hi [] trivial (by
    simp only at *
    rw [hcl]
    refine ⟨?_, trivial⟩
    by_cases hneg : i < 0
    · rw [if_pos hneg]; omega
    · rw [if_neg hneg]; omega)
  simp only at this
  rw [hcl] at this
  rw [← this]
  unfold item
  symm
  exact treeMap_id fun a ha => sub_nil (conf_leaves hc a ha).1

/-- `x[indices]` for an array of `s`-shaped indices, all within `-n … n-1`: record `j` of the result is record `indices[j]`. -/
theorem getitem_array {n : Nat} {b s : List Nat} {c : Cls α} {x : Tree α} (h : Conf (n :: b) c x) {v : List Int} (hv : v.length = size s)
    (hin : ∀ i ∈ v, -(n : Int) ≤ i ∧ i < n) :
    ∃ z, getitem x (.adv s [v]) = some z ∧ Conf (s ++ b) c z ∧ ∀ j, InB s j → ∀ i, v[ravel s j]? = some i →
      item j z = item [if i < 0 then (i + n).toNat else i.toNat] x := by
  obtain ⟨z, hz, hc, hi⟩ := getitem_records h (I := .adv s [v]) (R := ⟨s, 1, fun j => [wrapIdx n (v.getD (ravel s j) 0)]⟩) (by simp [resolve])
  refine ⟨z, hz, hc, fun j hj i hij => ?_⟩
  have hg : v.getD (ravel s j) 0 = i := by rw [List.getD_eq_getElem?_getD, hij]; rfl
  obtain ⟨h1, h2⟩ := hin i (List.mem_of_getElem? hij)
  have hcl : clampIdx (n :: b) [wrapIdx n (v.getD (ravel s j) 0)] = [if i < 0 then (i + n).toNat else i.toNat] := by
    have : clampIdx (n :: b) [wrapIdx n (v.getD (ravel s j) 0)] = [(max 0 (min (wrapIdx n i) ((n : Int) - 1))).toNat] := by rw [hg]; cases b <;> rfl
    rw [this]
    congr 1
    unfold wrapIdx
    by_cases hneg : i < 0
    · rw [if_pos hneg, if_pos hneg]; omega
    · rw [if_neg hneg, if_neg hneg]; omega
  have := hi j hj (by
    simp only at *
    rw [hcl]
    refine ⟨?_, trivial⟩
    by_cases hneg : i < 0
    · rw [if_pos hneg]; omega
    · rw [if_neg hneg]; omega)
  simp only at this
  rw [hcl] at this
  exact this

/-- `x[start:stop:step]`: record `k` of the result is record `range(n)[start:stop:step][k]`. -/
theorem getitem_slice {n : Nat} {b : List Nat} {c : Cls α} {x : Tree α} (h : Conf (n :: b) c x) {start stop step : Option Int} {l : List Nat}
    (hl : sliceList n start stop step = some l) :
    ∃ z, getitem x (.basic [.slice start stop step]) = some z ∧ Conf (l.length :: b) c z ∧
      ∀ k i, l[k]? = some i → i < n ∧ item [k] z = item [i] x := by
  obtain ⟨z, hz, hc, hi⟩ := getitem_records h (I := .basic [.slice start stop step])
    (R := ⟨[l.length], 1, fun j => [((l.getD (j.headD 0) 0 : Nat) : Int)]⟩) (by simp [resolve, resolveBasic, hl])
  refine ⟨z, hz, hc, fun k i hki => ?_⟩
  have hlt := sliceList_lt hl i (List.mem_of_getElem? hki)
  refine ⟨hlt, ?_⟩
  have hg : l.getD k 0 = i := by rw [List.getD_eq_getElem?_getD, hki]; rfl
  have hcl : clampIdx (n :: b) [((l.getD k 0 : Nat) : Int)] = [i] := by
    have : clampIdx (n :: b) [((l.getD k 0 : Nat) : Int)] = [(max 0 (min (i : Int) ((n : Int) - 1))).toNat] := by rw [hg]; cases b <;> rfl
    rw [this]
    congr 1
    omega
  have hk : k < l.length := (List.getElem?_eq_some_iff.1 hki).1
  have := hi [k] ⟨hk, trivial⟩ (by
    simp only [List.headD_cons] at *
    rw [hcl]
    exact ⟨hlt, trivial⟩)
  simp only [List.headD_cons] at this
  rw [hcl] at this
  exact this

/-- `x[mask]` for a mask of the batch shape: the records at the true positions, in row-major order. -/
theorem getitem_mask {b : List Nat} {c : Cls α} {x : Tree α} (h : Conf b c x) {bits : List Bool} (hb : bits.length = size b) :
    ∃ z, getitem x (.mask b bits) = some z ∧ Conf [(truePositions b bits).length] c z ∧
      ∀ k j, (truePositions b bits)[k]? = some j → item [k] z = item j x := by
  obtain ⟨z, hz, hc, hi⟩ := getitem_records h (I := .mask b bits) (R := ⟨[(truePositions b bits).length], b.length,
    fun j => ((truePositions b bits).getD (j.headD 0) []).map Int.ofNat⟩) (by simp [resolve, hb])
  refine ⟨z, hz, by simpa using hc, fun k j hkj => ?_⟩
  have hin := mem_truePositions (List.mem_of_getElem? hkj)
  have hg : (truePositions b bits).getD k [] = j := by rw [List.getD_eq_getElem?_getD, hkj]; rfl
  have hcl : clampIdx b (j.map Int.ofNat) = j := by
    clear hz hc hi hkj hg hb h
    induction b generalizing j with
    | nil =>
      cases j with
      | nil => rfl
      | cons => exact hin.elim
    | cons d b ih =>
      cases j with
      | nil => exact hin.elim
      | cons a j =>
        simp only [List.map_cons, clampIdx]
        rw [ih j hin.2]
        congr 1
        have := hin.1
        show (max 0 (min (a : Int) ((d : Int) - 1))).toNat = a
        omega
  have hk : k < (truePositions b bits).length := (List.getElem?_eq_some_iff.1 hkj).1
  have := hi [k] ⟨hk, trivial⟩ (by simp only [List.headD_cons, hg, hcl, List.take_length]; exact hin)
  simp only [List.headD_cons, hg, hcl] at this
  exact this

end SoA
