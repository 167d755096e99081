import Verif.SoAScalar
import Verif.SoAReshape
import Verif.SoABatch

/-!
# C67: every array function on a class of scalar fields is that function on the array of records

`recordsOf b x` is the array of records of an instance `x` of batch shape `b`, `fieldsOf c R` the instance made of the fields of an array `R` of records;
they are inverse to each other (`fieldsOf_recordsOf`, `recordsOf_fieldsOf`).  The theorems hold for every argument: any axis (negative, omitted, out of range),
any shape, any index; "raises" (`none`) on one side is "raises" on the other.
-/

namespace SoA

open Agg NArr

variable {α : Type} [Inhabited α] {b : List Nat} {c : Cls α} {x : Tree α}

theorem hasEntry_of_fields (hne : c ≠ .nil) (hc : c.HasFields) : c.HasEntry := by
  induction c with
  | nil => exact (hne rfl).elim
  | leaf => trivial
  | nested n ish sub rest ih1 ih2 => exact Or.inl (ih1 hc.1 hc.2.1)

theorem scalar_flip (hs : c.Scalar) (he : c.HasEntry) (h : Conf b c x) (axes : Option (List Int)) :
    flip x axes = (NArr.flip (recordsOf b x) axes).map (fieldsOf c) := map_records (flip_natural axes) hs he h

theorem scalar_roll (hs : c.Scalar) (he : c.HasEntry) (h : Conf b c x) (shifts : List Int) (axes : Option (List Int)) :
    roll x shifts axes = (NArr.roll (recordsOf b x) shifts axes).map (fieldsOf c) := map_records (roll_natural shifts axes) hs he h

theorem scalar_rot90 (hs : c.Scalar) (he : c.HasEntry) (h : Conf b c x) (k p q : Int) :
    rot90 x k p q = (NArr.rot90 (recordsOf b x) k p q).map (fieldsOf c) := map_records (rot90_natural k p q) hs he h

theorem scalar_repeat (hs : c.Scalar) (he : c.HasEntry) (h : Conf b c x) (how : Repeats) (axis : Option Int) :
    repeatInst x how axis = (repeatAxis (recordsOf b x) how axis).map (fieldsOf c) := map_records (repeat_natural how axis) hs he h

theorem scalar_squeeze (hs : c.Scalar) (he : c.HasEntry) (h : Conf b c x) (axes : Option (List Int)) :
    squeeze x axes = (NArr.squeeze (recordsOf b x) axes).map (fieldsOf c) := map_records (squeeze_natural axes) hs he h

theorem scalar_expandDims (hs : c.Scalar) (he : c.HasEntry) (h : Conf b c x) (axis : Int) :
    expandDims x axis = (NArr.expandDims (recordsOf b x) axis).map (fieldsOf c) := map_records (expandDims_natural axis) hs he h

theorem scalar_moveaxis (hs : c.Scalar) (he : c.HasEntry) (h : Conf b c x) (s d : List Int) :
    moveaxis x s d = (NArr.moveaxis (recordsOf b x) s d).map (fieldsOf c) := map_records (moveaxis_natural s d) hs he h

theorem scalar_broadcastTo (hs : c.Scalar) (he : c.HasEntry) (h : Conf b c x) (t : List Nat) :
    broadcastTo x t = (NArr.broadcastTo (recordsOf b x) t).map (fieldsOf c) := map_records (broadcastTo_natural t) hs he h

theorem scalar_getitem (hs : c.Scalar) (he : c.HasEntry) (h : Conf b c x) (I : Index) :
    getitem x I = (NArr.index (recordsOf b x) I).map (fieldsOf c) := map_records (index_natural I) hs he h

theorem scalar_take (oob : α) (hs : c.Scalar) (he : c.HasEntry) (h : Conf b c x) (s : List Nat) (inds : List Int) (axis : Int) :
    take oob x s inds axis = (NArr.take (fillRecord oob c) (recordsOf b x) s inds axis).map (fieldsOf c) :=
  fill_records (take_natural s inds axis) oob hs he h

theorem scalar_takeAlongAxis (oob : α) (hs : c.Scalar) (he : c.HasEntry) (h : Conf b c x) (inds : NArr Int) (axis : Int) :
    takeAlongAxis oob x inds axis = (takeAlongLeaf (fillRecord oob c) inds axis (recordsOf b x)).map (fieldsOf c) :=
  fill_records (takeAlongLeaf_natural inds axis) oob hs he h

theorem map_total (f : NArr α → NArr α) (x : Tree α) : treeMapM (fun a => some (f a)) x = some (treeMap f x) := treeMapM_some fun _ _ => rfl

theorem scalar_tile (hs : c.Scalar) (he : c.HasEntry) (h : Conf b c x) (reps : List Nat) :
    tile x reps = fieldsOf c (NArr.tile (recordsOf b x) reps) := by
  have := map_records (tile_natural reps) hs he h
  rw [map_total] at this
  exact Option.some.inj this

theorem scalar_atleast1d (hs : c.Scalar) (he : c.HasEntry) (h : Conf b c x) : atleast1d x = fieldsOf c (NArr.atleast1d (recordsOf b x)) := by
  have := map_records (F := fun _ _ a => some (NArr.atleast1d a)) (fun _ _ _ _ f _ a => by dsimp only; rw [atleast1d_map]; rfl) hs he h
  rw [map_total] at this
  exact Option.some.inj this

theorem scalar_atleast2d (hs : c.Scalar) (he : c.HasEntry) (h : Conf b c x) : atleast2d x = fieldsOf c (NArr.atleast2d (recordsOf b x)) := by
  have := map_records (F := fun _ _ a => some (NArr.atleast2d a)) (fun _ _ _ _ f _ a => by dsimp only; rw [atleast2d_map]; rfl) hs he h
  rw [map_total] at this
  exact Option.some.inj this

theorem scalar_atleast3d (hs : c.Scalar) (he : c.HasEntry) (h : Conf b c x) : atleast3d x = fieldsOf c (NArr.atleast3d (recordsOf b x)) := by
  have := map_records (F := fun _ _ a => some (NArr.atleast3d a)) (fun _ _ _ _ f _ a => by dsimp only; rw [atleast3d_map]; rfl) hs he h
  rw [map_total] at this
  exact Option.some.inj this

/-! ## Several instances -/

variable {bs : List (List Nat)} {xs : List (Tree α)}

theorem scalar_vstack (hs : c.Scalar) (he : c.HasEntry) (hx : xs ≠ []) (h : ConfAll c bs xs) :
    vstack xs = (NArr.vstack (recordsAll bs xs)).map (fieldsOf c) := by
  match bs, xs, hx with
  | b :: bs, x :: xs, _ => exact mapN_records vstack_natural hs he h
  | [], _ :: _, _ => exact h.elim

theorem scalar_hstack (hs : c.Scalar) (he : c.HasEntry) (hx : xs ≠ []) (h : ConfAll c bs xs) :
    hstack xs = (NArr.hstack (recordsAll bs xs)).map (fieldsOf c) := by
  match bs, xs, hx with
  | b :: bs, x :: xs, _ => exact mapN_records hstack_natural hs he h
  | [], _ :: _, _ => exact h.elim

theorem scalar_dstack (hs : c.Scalar) (he : c.HasEntry) (hx : xs ≠ []) (h : ConfAll c bs xs) :
    dstack xs = (NArr.dstack (recordsAll bs xs)).map (fieldsOf c) := by
  match bs, xs, hx with
  | b :: bs, x :: xs, _ => exact mapN_records dstack_natural hs he h
  | [], _ :: _, _ => exact h.elim

theorem scalar_columnStack (hs : c.Scalar) (he : c.HasEntry) (hx : xs ≠ []) (h : ConfAll c bs xs) :
    columnStack xs = (NArr.columnStack (recordsAll bs xs)).map (fieldsOf c) := by
  match bs, xs, hx with
  | b :: bs, x :: xs, _ => exact mapN_records columnStack_natural hs he h
  | [], _ :: _, _ => exact h.elim

theorem confAll_types (hne : c ≠ .nil) (hc : c.HasFields) (h : ConfAll c bs xs) :
    xs.mapM (fun z => structuredType c z) = some (bs.map fun b => if b = [] then .single else .batched) ∧
    xs.map (batchShape c) = bs.map (fun b => some (.tup b)) ∧ xs.mapM (fun z => (batchShape c z).bind tupOf) = some bs ∧
    (recordsAll bs xs).map (·.shape) = bs := by
  induction bs generalizing xs with
  | nil =>
    cases xs with
    | nil => exact ⟨rfl, rfl, rfl, rfl⟩
    | cons => exact h.elim
  | cons b bs ih =>
    cases xs with
    | nil => exact h.elim
    | cons x xs =>
      obtain ⟨i1, i2, i3, i4⟩ := ih h.2
      have d := (derived_of_conf hne hc h.1).2.2
      have e := batchShape_of_conf hne hc h.1
      refine ⟨?_, ?_, ?_, ?_⟩
      · rw [List.mapM_cons, d, i1]; rfl
      · rw [List.map_cons, List.map_cons, e, i2]
      · rw [List.mapM_cons, e, i3]; rfl
      · simp only [recordsAll, List.map_cons, i4]; rfl

theorem all_shape {β : Type} {Rs : List (NArr β)} {bs : List (List Nat)} (h : Rs.map (·.shape) = bs) (p : List Nat → Bool) :
    (Rs.all fun R => p R.shape) = bs.all p := by
  subst h; rw [List.all_map]; rfl

/-- `stack` of two or more. -/
theorem scalar_stack (hs : c.Scalar) (hne : c ≠ .nil) (hc : c.HasFields) (h2 : 2 ≤ xs.length) (h : ConfAll c bs xs) (axis : Int) :
    stack c xs axis = (NArr.stack (recordsAll bs xs) axis).map (fieldsOf c) := by
  match bs, xs, h2 with
  | [], _ :: _, _ => exact h.elim
  | [_], _ :: _ :: _, _ => exact h.2.elim
  | b :: b' :: bs, x :: y :: ys, _ =>
    have hN := mapN_records (stack_natural axis) hs (hasEntry_of_fields hne hc) h
    obtain ⟨t1, t2, _, t4⟩ := confAll_types hne hc h.2
    have d := (derived_of_conf hne hc h.1).2.2
    have e := batchShape_of_conf hne hc h.1
    unfold stack
    dsimp only
    rw [d, t1, Option.bind_some, Option.bind_some]
    by_cases hall : ∀ z ∈ b' :: bs, z = b
    · have : ((b' :: bs).map fun b => if b = [] then SType.single else .batched).all (· == if b = [] then SType.single else .batched) = true := by
        rw [List.all_map, List.all_eq_true]
        intro z hz
        have := hall z hz
        subst this
        simp
      rw [if_pos this, if_neg]
      · exact hN
      · rintro ⟨_, h3⟩
        apply h3
        have e2 : ((y :: ys).all fun z => batchShape c z == batchShape c x) = ((y :: ys).map (batchShape c)).all (· == batchShape c x) := by
          rw [List.all_map]; rfl
        rw [e2, t2, e, List.all_map, List.all_eq_true]
        intro z hz
        have := hall z hz
        subst this
        simp
    · have hnone : NArr.stack (recordsAll (b :: b' :: bs) (x :: y :: ys)) axis = none := by
        show NArr.stack (recordsOf b x :: recordsAll (b' :: bs) (y :: ys)) axis = none
        unfold NArr.stack
        dsimp only
        cases normAxis axis ((recordsOf b x).shape.length + 1) with
        | none => rfl
        | some ax =>
          rw [Option.bind_some, if_neg]
          intro h3
          rw [List.all_cons, all_shape t4 (fun s => s == (recordsOf b x).shape)] at h3
          rw [Bool.and_eq_true, List.all_eq_true] at h3
          exact hall fun z hz => by have := h3.2 z hz; simpa [recordsOf] using this
      rw [hnone]
      by_cases h3 : (((b' :: bs).map fun b => if b = [] then SType.single else .batched).all (· == if b = [] then SType.single else .batched)) = true
      · rw [if_pos h3, if_pos]
        · rfl
        · rw [List.all_map, List.all_eq_true] at h3
          have e2 : ((y :: ys).all fun z => batchShape c z == batchShape c x) = ((y :: ys).map (batchShape c)).all (· == batchShape c x) := by
            rw [List.all_map]; rfl
          rw [e2, t2, e, List.all_map]
          by_cases hb : b = []
          · exfalso
            subst hb
            apply hall
            intro z hz
            have := h3 z hz
            apply Classical.byContradiction
            intro hz'
            simp [hz'] at this
          · refine ⟨if_neg hb, fun h4 => hall fun z hz => ?_⟩
            rw [List.all_eq_true] at h4
            have := h4 z hz
            simpa using this
      · rw [if_neg h3]; rfl

/-- Shapes equal except at `ax`. -/
theorem eraseIdx_agree {s t : List Nat} {ax : Nat} (hl : s.length = t.length) (h : s.eraseIdx ax = t.eraseIdx ax) {i : Nat} (hi : i ≠ ax) :
    s.getD i 0 = t.getD i 0 := by
  have h1 := set_of_eraseIdx (d := 0) hl h
  have h2 : (s.set ax 0).getD i 0 = (t.set ax 0).getD i 0 := by rw [h1]
  have e : ∀ l : List Nat, (l.set ax 0).getD i 0 = l.getD i 0 := fun l => by
    rw [List.getD_eq_getElem?_getD, List.getElem?_set_ne (Ne.symm hi), List.getD_eq_getElem?_getD]
  rwa [e, e] at h2

/-- `concat` of two or more batches; single records are stacked. -/
theorem scalar_concat (hs : c.Scalar) (hne : c ≠ .nil) (hc : c.HasFields) (h2 : 2 ≤ xs.length) (h : ConfAll c bs xs) (axis : Int) :
    concat c xs axis = (if bs.head? = some [] then NArr.stack (recordsAll bs xs) axis else NArr.concatenate (recordsAll bs xs) axis).map (fieldsOf c) := by
  match bs, xs, h2 with
  | [], _ :: _, _ => exact h.elim
  | [_], _ :: _ :: _, _ => exact h.2.elim
  | b :: b' :: bs, x :: y :: ys, h2 =>
    have hstack := scalar_stack hs hne hc h2 h axis
    have hN := mapN_records (concatenate_natural axis) hs (hasEntry_of_fields hne hc) h
    obtain ⟨t1, t2, t3, t4⟩ := confAll_types hne hc h.2
    have d := (derived_of_conf hne hc h.1).2.2
    have e := batchShape_of_conf hne hc h.1
    have hconc : ¬ (b ≠ [] ∧ ((b' :: bs).all fun z => (if z = [] then SType.single else .batched) == (if b = [] then SType.single else .batched)) = true ∧
        concatChecks axis b (b' :: bs) = true) → b ≠ [] → NArr.concatenate (recordsAll (b :: b' :: bs) (x :: y :: ys)) axis = none := by
      intro hno hb
      show NArr.concatenate (recordsOf b x :: recordsAll (b' :: bs) (y :: ys)) axis = none
      unfold NArr.concatenate
      dsimp only
      have hsh : (recordsOf b x).shape = b := rfl
      rw [hsh]
      cases hax : normAxis axis b.length with
      | none => rfl
      | some ax =>
        rw [Option.bind_some, if_neg]
        intro h3
        rw [List.all_cons, all_shape t4 (fun s => s.length == b.length && s.eraseIdx ax == b.eraseIdx ax), Bool.and_eq_true, List.all_eq_true] at h3
        have h4 : ∀ z ∈ b' :: bs, z.length = b.length ∧ z.eraseIdx ax = b.eraseIdx ax := fun z hz => by simpa using h3.2 z hz
        refine hno ⟨hb, ?_, ?_⟩
        · rw [List.all_eq_true]
          intro z hz
          have : z ≠ [] := fun hz' => by have := (h4 z hz).1; subst hz'; exact hb (List.eq_nil_of_length_eq_zero this.symm)
          simp [this, hb]
        · have hadj : (if axis ≥ 0 then axis else (b.length : Int) + axis) = (ax : Int) ∧ ax < b.length := by
            unfold normAxis at hax
            by_cases h5 : 0 ≤ axis ∧ axis < b.length
            · rw [if_pos h5] at hax; cases hax; rw [if_pos h5.1]; omega
            · rw [if_neg h5] at hax
              by_cases h6 : axis < 0 ∧ 0 ≤ axis + b.length
              · rw [if_pos h6] at hax; cases hax; rw [if_neg (by omega)]; omega
              · rw [if_neg h6] at hax; cases hax
          unfold concatChecks
          dsimp only
          rw [hadj.1, Bool.and_eq_true]
          refine ⟨by simpa using hadj.2, ?_⟩
          rw [List.all_eq_true]
          intro z hz
          rw [Bool.and_eq_true]
          refine ⟨by simpa using (h4 z hz).1, ?_⟩
          rw [List.all_eq_true]
          intro i _
          by_cases hi : i = ax
          · simp [hi]
          · have := eraseIdx_agree (h4 z hz).1 (h4 z hz).2 hi
            rw [this]; simp
    unfold concat
    dsimp only
    rw [d, t1, Option.bind_some, Option.bind_some, List.all_map]
    by_cases h3 : ((b' :: bs).all ((fun x => x == if b = [] then SType.single else .batched) ∘ fun b => if b = [] then SType.single else .batched)) = true
    · rw [if_pos h3]
      by_cases hb : b = []
      · subst hb
        simpa using hstack
      · rw [if_neg hb, if_neg (by simpa using hb)]
        dsimp only
        rw [e, t3]
        simp only [Option.bind_some, tupOf]
        by_cases h4 : concatChecks axis b (b' :: bs) = true
        · rw [if_pos h4]; exact hN
        · rw [if_neg h4, hconc (fun hh => h4 hh.2.2) hb]; rfl
    · rw [if_neg h3]
      by_cases hb : b = []
      · subst hb
        have : stack c (x :: y :: ys) axis = none := by
          unfold stack
          dsimp only
          rw [d, t1, Option.bind_some, Option.bind_some, List.all_map, if_neg h3]
        rw [show ([] :: b' :: bs).head? = some ([] : List Nat) from rfl, if_pos rfl, ← hstack, this]
      · rw [if_neg (by simpa using hb), hconc (fun hh => h3 hh.2.1) hb]; rfl

/-! ## Functions that look at the batch shape -/

theorem normAxis_lt {a : Int} {n k : Nat} (h : normAxis a n = some k) : k < n := by
  unfold normAxis at h
  by_cases h5 : 0 ≤ a ∧ a < n
  · rw [if_pos h5] at h; cases h; omega
  · rw [if_neg h5] at h
    by_cases h6 : a < 0 ∧ 0 ≤ a + n
    · rw [if_pos h6] at h; cases h; omega
    · rw [if_neg h6] at h; cases h

theorem scalar_transpose (hs : c.Scalar) (hne : c ≠ .nil) (hc : c.HasFields) (h : Conf b c x) (axes : Option (List Int)) :
    transposeInst c x axes = (NArr.transpose (recordsOf b x) (axes.getD ((List.range b.length).reverse.map Int.ofNat))).map (fieldsOf c) := by
  unfold transposeInst
  rw [batchShape_of_conf hne hc h, Option.bind_some]
  dsimp only
  have := map_records (F := fun _ _ a => if a.shape.length < b.length then some a
      else if a.shape.length = b.length then NArr.transpose a (axes.getD ((List.range b.length).reverse.map Int.ofNat))
      else NArr.transpose a (axes.getD ((List.range b.length).reverse.map Int.ofNat) ++
        ((List.range (a.shape.length - b.length)).map fun (k : Nat) => ((b.length + k : Nat) : Int)))) (by
    intro β γ _ _ f hf a
    exact ite_map2 rfl (ite_map2 (transpose_natural _ β γ f hf a) (transpose_natural _ β γ f hf a))) hs (hasEntry_of_fields hne hc) h
  rw [this]
  have hsh : (recordsOf b x).shape = b := rfl
  rw [hsh, if_neg (by omega), if_pos rfl]

theorem scalar_swapaxes (hs : c.Scalar) (hne : c ≠ .nil) (hc : c.HasFields) (h : Conf b c x) (p q : Int) :
    swapaxes c x p q = (NArr.swapaxes (recordsOf b x) p q).map (fieldsOf c) := by
  have hsh : (recordsOf b x).shape = b := rfl
  have hR : NArr.swapaxes (recordsOf b x) p q = (normAxis p b.length).bind fun p' => (normAxis q b.length).bind fun q' =>
      NArr.swapaxes (recordsOf b x) p' q' := by
    unfold NArr.swapaxes
    rw [hsh]
    cases hp : normAxis p b.length with
    | none => rfl
    | some p' =>
      cases hq : normAxis q b.length with
      | none => rfl
      | some q' => simp only [Option.bind_some, normAxis_nat (normAxis_lt hp), normAxis_nat (normAxis_lt hq), Option.map_some]
  rw [hR]
  unfold swapaxes
  rw [batchShape_of_conf hne hc h, Option.bind_some]
  dsimp only
  cases hp : normAxis p b.length with
  | none => rfl
  | some p' =>
    cases hq : normAxis q b.length with
    | none => rfl
    | some q' =>
      simp only [Option.bind_some]
      have := map_records (F := fun _ _ a => if a.shape.length < b.length then some a else NArr.swapaxes a p' q') (by
        intro β γ _ _ f hf a
        exact ite_map2 rfl (swapaxes_natural _ _ β γ f hf a)) hs (hasEntry_of_fields hne hc) h
      rw [this, hsh, if_neg (by omega)]

/-! ## `where` -/

theorem treeMapN_two (g : NArr α → NArr α → Option (NArr α)) (x y : Tree α) :
    treeMapN (fun l => match l with | [a, w] => g a w | _ => none) x [y] = (zip x y).bind (treeMapM fun p => g p.1 p.2) := by
  unfold treeMapN SoA.transpose
  simp only [SoA.transpose, Option.bind_some]
  have := zip_treeMap (fun v : NArr α => v) (fun v : NArr α => [v]) x y
  rw [treeMap_id (f := fun v : NArr α => v) fun _ _ => rfl] at this
  rw [this]
  cases zip x y with
  | none => rfl
  | some z =>
    simp only [Option.map_some, Option.bind_some, treeMap_comp]
    induction z with
    | nil => rfl
    | leaf n v rest ih => simp only [treeMap, treeMapM, ih]
    | nested n s rest ih1 ih2 => simp only [treeMap, treeMapM, ih1, ih2]

theorem whereLeaf_natural (cond : NArr Bool) : NaturalN fun _ _ l => match l with | [a, w] => whereLeaf cond a w | _ => none := by
  intro β γ _ _ f hf as
  match as with
  | [] => rfl
  | [a] => rfl
  | a :: w :: v :: l => rfl
  | [a, w] =>
    show whereLeaf cond (mapArr f a) (mapArr f w) = (whereLeaf cond a w).map (mapArr f)
    unfold whereLeaf
    dsimp only [mapArr_shape]
    have e : NArr.broadcastTo (mapArr f w) a.shape = _ := broadcastTo_natural a.shape β γ f hf w
    rw [e]
    cases NArr.broadcastTo cond a.shape with
    | none => rfl
    | some c =>
      dsimp only [Option.bind_some]
      cases NArr.broadcastTo w a.shape with
      | none => rfl
      | some v => simp only [Option.map_some, whereSame, mapArr_ofFn, get_mapArr hf, apply_ite f, mapArr_shape]

/-- `where(condition, x, y)`: the condition of batch shape selects whole records. -/
theorem scalar_where (hs : c.Scalar) (he : c.HasEntry) {b' : List Nat} {y : Tree α} (h : Conf b c x) (h' : Conf b' c y) (cond : NArr Bool) :
    whereInst cond x y = (whereLeaf cond (recordsOf b x) (recordsOf b' y)).map (fieldsOf c) := by
  have := mapN_records (whereLeaf_natural cond) (b := b) (bs := [b']) (x := x) (xs := [y]) hs he ⟨h, h', trivial⟩
  rw [treeMapN_two] at this
  exact this

/-! ## `split` -/

theorem split_natural {β γ : Type} [Inhabited β] [Inhabited γ] {f : β → γ} (hf : f default = default) (how : Sections) (axis : Int) (a : NArr β) :
    NArr.split (mapArr f a) how axis = (NArr.split a how axis).map (List.map (mapArr f)) := by
  have sl : ∀ ax lo hi, sliceAxis (mapArr f a) ax lo hi = mapArr f (sliceAxis a ax lo hi) := fun ax lo hi => by
    simp only [sliceAxis, mapArr_ofFn, get_mapArr hf, mapArr_shape]
  unfold NArr.split
  simp only [sl]
  dsimp only [mapArr_shape]
  cases normAxis axis a.shape.length with
  | none => rfl
  | some ax =>
    dsimp only [Option.bind_some]
    cases how with
    | sections n =>
      refine ite_map' fun _ => ite_map' fun _ => ?_
      rw [Option.map_some, List.map_map]; rfl
    | «at» ps =>
      refine ite_map fun _ => ?_
      rw [Option.map_some, List.map_map]; rfl

theorem split_fieldsOf (how : Sections) (axis : Int) (he : c.HasEntry) (R : NArr (Inst α)) :
    treeMapM (fun a => NArr.split a how axis) (fieldsOf c R) = (NArr.split R how axis).map (fieldsL c) := by
  cases h : NArr.split R how axis with
  | none =>
    induction c generalizing R with
    | nil => exact he.elim
    | leaf n ish fill rest ih =>
      simp only [fieldsOf, treeMapM]
      rw [split_natural (f := first) rfl, h]; rfl
    | nested n ish sub rest ih1 ih2 =>
      simp only [fieldsOf, treeMapM]
      rcases he with he | he
      · rw [ih1 he _ (by rw [split_natural (f := firstSub) rfl, h]; rfl)]; rfl
      · rw [ih2 he _ (by rw [split_natural (f := others) rfl, h]; rfl)]
        cases treeMapM (fun a => NArr.split a how axis) (fieldsOf sub (mapArr firstSub R)) <;> rfl
  | some Zs =>
    clear he
    induction c generalizing R Zs with
    | nil => rfl
    | leaf n ish fill rest ih =>
      simp only [fieldsOf, treeMapM]
      rw [split_natural (f := first) rfl, h, ih _ _ (by rw [split_natural (f := others) rfl, h]; rfl)]; rfl
    | nested n ish sub rest ih1 ih2 =>
      simp only [fieldsOf, treeMapM]
      rw [ih1 _ _ (by rw [split_natural (f := firstSub) rfl, h]; rfl), ih2 _ _ (by rw [split_natural (f := others) rfl, h]; rfl)]; rfl

theorem fieldsL_getD (c : Cls α) (Zs : List (NArr (Inst α))) (k : Nat) :
    treeMap (fun l => l.getD k default) (fieldsL c Zs) = fieldsOf c (Zs.getD k default) := by
  induction c generalizing Zs with
  | nil => rfl
  | leaf n ish fill rest ih =>
    simp only [fieldsL, treeMap, fieldsOf, ih]
    rw [getD_mapArr (f := first) rfl, getD_mapArr (f := others) rfl]
  | nested n ish sub rest ih1 ih2 =>
    simp only [fieldsL, treeMap, fieldsOf, ih1, ih2]
    rw [getD_mapArr (f := firstSub) rfl, getD_mapArr (f := others) rfl]

theorem leaves_fieldsL (he : c.HasEntry) (Zs : List (NArr (Inst α))) :
    leaves (fieldsL c Zs) ≠ [] ∧ ∀ l ∈ leaves (fieldsL c Zs), l.length = Zs.length := by
  refine ⟨?_, ?_⟩
  · induction c generalizing Zs with
    | nil => exact he.elim
    | leaf n ish fill rest ih => simp [fieldsL, leaves]
    | nested n ish sub rest ih1 ih2 =>
      simp only [fieldsL, leaves]
      intro h
      rcases he with he | he
      · exact ih1 he _ (List.append_eq_nil_iff.1 h).1
      · exact ih2 he _ (List.append_eq_nil_iff.1 h).2
  · clear he
    induction c generalizing Zs with
    | nil => intro l hl; cases hl
    | leaf n ish fill rest ih =>
      intro l hl
      rcases List.mem_cons.1 hl with rfl | hl
      · simp
      · simpa using ih _ l hl
    | nested n ish sub rest ih1 ih2 =>
      intro l hl
      rcases List.mem_append.1 hl with hl | hl
      · simpa using ih1 _ l hl
      · simpa using ih2 _ l hl

theorem scalar_split (hs : c.Scalar) (he : c.HasEntry) (h : Conf b c x) (how : Sections) (axis : Int) :
    split x how axis = (NArr.split (recordsOf b x) how axis).map (List.map (fieldsOf c)) := by
  have h1 := split_fieldsOf how axis he (recordsOf b x)
  rw [fieldsOf_recordsOf hs h] at h1
  unfold split
  rw [h1]
  cases NArr.split (recordsOf b x) how axis with
  | none => rfl
  | some Zs =>
    simp only [Option.map_some, Option.some.injEq]
    obtain ⟨l1, l2⟩ := leaves_fieldsL he Zs
    cases hl : leaves (fieldsL c Zs) with
    | nil => exact (l1 hl).elim
    | cons l ls =>
      dsimp only
      rw [l2 l (by rw [hl]; simp)]
      simp only [fieldsL_getD]
      apply List.ext_getElem?
      intro k
      rw [List.getElem?_map, List.getElem?_map]
      by_cases hk : k < Zs.length
      · rw [List.getElem?_range hk, List.getElem?_eq_getElem hk]
        simp only [Option.map_some, Option.some.injEq]
        rw [List.getD_eq_getElem?_getD, List.getElem?_eq_getElem hk]; rfl
      · rw [List.getElem?_eq_none (by simpa using hk), List.getElem?_eq_none (by omega)]; rfl

/-! ## Non-vacuity -/

/-- A class with a scalar field and a nested instance of a class with a scalar field. -/
def demoScalar : Cls Nat := .leaf "a" [] (fun _ => ⟨[], [0]⟩) (.nested "n" [] (.leaf "b" [] (fun _ => ⟨[], [0]⟩) .nil) .nil)

/-- A batch of shape (2, 3). -/
def demoScalarX : Tree Nat := .leaf "a" ⟨[2, 3], [0, 1, 2, 3, 4, 5]⟩ (.nested "n" (.leaf "b" ⟨[2, 3], [10, 11, 12, 13, 14, 15]⟩ .nil) .nil)

theorem demoScalar_ok : demoScalar.Scalar ∧ demoScalar ≠ .nil ∧ demoScalar.HasFields ∧ Conf [2, 3] demoScalar demoScalarX :=
  ⟨⟨rfl, rfl, ⟨rfl, trivial⟩, trivial⟩, (fun h => (by cases h)), ⟨(fun h => (by cases h)), trivial, trivial⟩, rfl, ⟨rfl, rfl⟩, rfl,
    ⟨rfl, ⟨rfl, rfl⟩, trivial⟩, trivial⟩

/-- A negative axis: the last batch axis is reversed. -/
example : flip demoScalarX (some [-1]) =
    some (.leaf "a" ⟨[2, 3], [2, 1, 0, 5, 4, 3]⟩ (.nested "n" (.leaf "b" ⟨[2, 3], [12, 11, 10, 15, 14, 13]⟩ .nil) .nil)) := by decide +kernel

/-- An axis out of range raises on both sides. -/
example : flip demoScalarX (some [2]) = none ∧ NArr.flip (recordsOf [2, 3] demoScalarX) (some [2]) = none := by decide +kernel

/-- The array of records. -/
example : (recordsOf [2, 3] demoScalarX).get [1, 2] = .leaf "a" 5 (.nested "n" (.leaf "b" 15 .nil) .nil) := by decide +kernel

/-- Without scalar fields the statement is false: `flip` without an axis also reverses an intrinsic axis (C52). -/
theorem scalar_needed : flip (.leaf "v" ⟨[1, 2], [1, 2]⟩ .nil : Tree Nat) none ≠ some (.leaf "v" ⟨[1, 2], [1, 2]⟩ .nil) := by decide +kernel

end SoA
