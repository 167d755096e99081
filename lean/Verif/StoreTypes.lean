import Verif.WhereTypes

/-!
# C110: values whose fields have another dtype than the container's

Nothing checks or converts the dtypes of what is given to `x.at[i].set(v)`, `Stack.push`, `Queue.enqueue` and `BGPQ.insert` (classes validate only on request).
-/

namespace StoreTypes

open SoA NArr Agg WhereTypes

/-! ## Model -/

variable {F : Type} [Floats F]

/-- `a.at[index].set(v)` of two arrays (used at indexing.py:68): JAX converts BOTH to their common dtype, scatters, and converts the result back to the dtype of `a`; if the
selection is empty it returns `a` (jax/_src/ops/scatter.py, trusted). -/
def setLeafD (ord : List (List Nat)) (a : DArr F) (I : Index) (v : DArr F) : Option (DArr F) :=
  let t := a.dtype.promote v.dtype
  (resolve I a.arr.shape).bind fun R =>
    if size (R.out ++ a.arr.shape.drop R.m) = 0 then some a
    else (NArr.atSet ord (a.astype t).arr I (v.astype t).arr).map fun z => (⟨t, z⟩ : DArr F).astype a.dtype

/-- `x.at[index].set(v)` for an instance `v` of the class (indexing.py:34-74), with dtypes. -/
def atSetD (ord : List String → List (List Nat)) (I : Index) : List String → Inst (DArr F) → Inst (DArr F) → Inst (DArr F)
  | pre, .leaf n a rest, .leaf _ w rest' => .leaf n ((setLeafD (ord (pre ++ [n])) a I w).getD a) (atSetD ord I pre rest rest')
  | pre, .nested n x rest, .nested _ v rest' => .nested n (atSetD ord I (pre ++ [n]) x v) (atSetD ord I pre rest rest')
  | _, x, _ => x

/-! ## Specification -/

/-- The instance `v` with its fields converted to the dtypes `D`. -/
def castTo : Inst Dt → Inst (DArr F) → Inst (DArr F)
  | .leaf _ d r, .leaf m w r' => .leaf m (w.astype d) (castTo r r')
  | .nested _ x r, .nested m v r' => .nested m (castTo x v) (castTo r r')
  | _, v => v

/-- An integer field (other than a boolean one) given floats: the one case in which something can be lost. -/
def Lossy (d e : Dt) : Prop := d.isInt = true ∧ d ≠ .bool ∧ e.isInt = false

instance (d e : Dt) : Decidable (Lossy d e) := by unfold Lossy; infer_instance

/-- What is assumed of floats: `rep d` are the numbers of dtype `d`; converting to a dtype that includes it loses nothing; 0 and 1 survive. -/
class FloatLaws (F : Type) [Floats F] where
  rep : Dt → F → Prop
  widen : ∀ (e t s : Dt) (x : F), e.isInt = false → e.promote t = t → rep e x → Floats.cast s (Floats.cast t x) = Floats.cast s x
  rep_cast : ∀ (d : Dt) (x : F), rep d x → Floats.cast d x = x
  rep_ofInt : ∀ (d : Dt) (n : Int), d.isInt = false → rep d (Floats.ofInt d n)
  rep_of_cast : ∀ (d : Dt) (x : F), d.isInt = false → rep d (Floats.cast d x)
  toInt_holds : ∀ (d : Dt) (x : F), d.isInt = true → Holds d (Floats.toInt d x)
  bit : ∀ (e : Dt) (n : Int), e.isInt = false → n = 0 ∨ n = 1 → Floats.toInt .bool (Floats.ofInt (F := F) e n) = n

/-- The entries an array of dtype `d` can have. -/
def Typed [FloatLaws F] (d : Dt) : Ent F → Prop
  | .int n => d.isInt = true ∧ Holds d n
  | .flt x => d.isInt = false ∧ FloatLaws.rep d x

/-- Every field holds entries of its dtype and has as many entries as its shape says. -/
def Good [FloatLaws F] (x : Inst (DArr F)) : Prop := ∀ a ∈ leaves x, a.arr.Wf ∧ ∀ e ∈ a.arr.data, Typed a.dtype e

/-- No integer field, of those whose dtypes are `D`, is given floats by `v`. -/
def NoLoss : Inst Dt → Inst (DArr F) → Prop
  | .leaf _ d r, .leaf _ w r' => ¬ Lossy d w.dtype ∧ NoLoss r r'
  | .nested _ x r, .nested _ v r' => NoLoss x v ∧ NoLoss r r'
  | _, _ => True

/-! ## Conversions -/

/-- What becomes of an entry that is not written: there and back through the common dtype. -/
def around (d e : Dt) (x : Ent F) : Ent F := conv (d.promote e) d (conv d (d.promote e) x)

section Laws

variable [FloatLaws F]

theorem promote_idem (d e : Dt) : d.promote (d.promote e) = d.promote e := by rw [← promote_assoc, promote_self]

theorem around_id {d e : Dt} (h : ¬ Lossy d e) {x : Ent F} (hx : Typed d x) : around d e x = x := by
  unfold around
  by_cases ht : d = d.promote e
  · rw [← ht, conv_self, conv_self]
  · cases x with
    | flt x =>
      obtain ⟨hd, hr⟩ := hx
      have hp : (d.promote e).isInt = false := by revert hd; cases d <;> cases e <;> decide
      unfold conv
      rw [if_neg ht, if_neg (Ne.symm ht)]
      simp only [hp, hd]
      rw [FloatLaws.widen d _ d x hd (promote_idem d e) hr, FloatLaws.rep_cast d x hr]
    | int n =>
      obtain ⟨hd, hh⟩ := hx
      by_cases hb : d = .bool
      · subst hb
        have hp : Dt.promote .bool e = e := by cases e <;> rfl
        rw [hp] at ht ⊢
        unfold conv
        rw [if_neg ht, if_neg (Ne.symm ht)]
        cases he : e.isInt with
        | false =>
          show Ent.int (Floats.toInt .bool (Floats.ofInt (F := F) e n)) = _
          rw [FloatLaws.bit e n he hh]
        | true =>
          simp only [Dt.isInt]
          congr 1
          clear ht h hp
          rcases hh with rfl | rfl <;> revert he <;> cases e <;> decide
      · have he : e.isInt = true := by
          cases he : e.isInt with
          | true => rfl
          | false => exact absurd ⟨hd, hb, he⟩ h
        have hp : (d.promote e).isInt = true := by revert hd he; cases d <;> cases e <;> decide
        unfold conv
        rw [if_neg ht, if_neg (Ne.symm ht)]
        simp only [hp, hd]
        congr 1
        revert ht hh hb hd he
        cases d <;> cases e <;> simp [Dt.isInt, Dt.promote, Holds, wrap] <;> omega

/-- An entry that is written is converted to the dtype of the field, whatever the common dtype. -/
theorem written {d e : Dt} {x : Ent F} (hx : Typed e x) : conv (d.promote e) d (conv e (d.promote e) x) = conv e d x := by
  by_cases ht : e = d.promote e
  · rw [← ht, conv_self]
  · by_cases hd : d = d.promote e
    · rw [← hd, conv_self]
    · cases x with
      | flt x =>
        obtain ⟨he, hr⟩ := hx
        have hdi : d.isInt = false := by revert he ht; cases d <;> cases e <;> decide
        have hp : (d.promote e).isInt = false := by revert hdi he; cases d <;> cases e <;> decide
        have hde : e ≠ d := by rintro rfl; exact ht (promote_self e).symm
        unfold conv
        rw [if_neg ht, if_neg (Ne.symm hd), if_neg hde]
        simp only [hp, hdi]
        rw [FloatLaws.widen e _ d x he (by rw [promote_comm d e, promote_idem]) hr]
      | int n =>
        obtain ⟨he, hh⟩ := hx
        have hde : e ≠ d := by rintro rfl; exact ht (promote_self e).symm
        have hdi : d.isInt = true := by revert he ht hd; cases d <;> cases e <;> decide
        have hp : (d.promote e).isInt = true := by revert hdi he; cases d <;> cases e <;> decide
        unfold conv
        rw [if_neg ht, if_neg (Ne.symm hd), if_neg hde]
        simp only [hp, hdi]
        congr 1
        revert ht hd hh hdi he
        cases d <;> cases e <;> simp [Dt.isInt, Dt.promote, Holds, wrap] <;> omega

end Laws

section Laws

variable [FloatLaws F]

theorem wrap_holds {d : Dt} (h : d.isInt = true) (n : Int) : Holds d (wrap d n) := by
  revert h
  cases d <;> simp [Dt.isInt, Holds, wrap] <;> omega

theorem conv_typed {d e : Dt} {x : Ent F} (hx : Typed e x) : Typed d (conv e d x) := by
  by_cases h : e = d
  · subst h; rw [conv_self]; exact hx
  · unfold conv
    rw [if_neg h]
    cases hd : d.isInt <;> cases x with
    | int n =>
      first
      | exact ⟨hd, wrap_holds hd n⟩
      | exact ⟨hd, FloatLaws.rep_ofInt d n hd⟩
    | flt y =>
      first
      | exact ⟨hd, FloatLaws.rep_of_cast d y hd⟩
      | exact ⟨hd, FloatLaws.toInt_holds d y hd⟩

theorem typed_witness (d : Dt) : ∃ x : Ent F, Typed d x := by
  cases hd : d.isInt with
  | true => exact ⟨.int (wrap d 0), hd, wrap_holds hd 0⟩
  | false => exact ⟨.flt (Floats.ofInt d 0), hd, FloatLaws.rep_ofInt d 0 hd⟩

end Laws

/-! ## Scatters commute with conversions -/

section Natural

variable {α β : Type} [Inhabited α] [Inhabited β]

/-- `f` applied to every entry. -/
def mapA (f : α → β) (a : NArr α) : NArr β := ⟨a.shape, a.data.map f⟩

omit [Inhabited α] [Inhabited β] in
theorem mapA_wf {f : α → β} {a : NArr α} (h : a.Wf) : (mapA f a).Wf := by
  unfold Wf mapA at *; rw [List.length_map]; exact h

omit [Inhabited α] [Inhabited β] in
theorem mapA_ofFn (f : α → β) (s : List Nat) (g : List Nat → α) : mapA f (ofFn s g) = ofFn s fun i => f (g i) := by
  unfold mapA ofFn SortGroup.tab
  simp only [List.map_map]
  rfl

theorem broadcast_map (f : α → β) {w : NArr α} (hw : w.Wf) {t : List Nat} :
    broadcastTo (mapA f w) t = (broadcastTo w t).map (mapA f) := by
  unfold broadcastTo
  show (if w.shape.length ≤ t.length ∧ bcastDims w.shape (t.drop (t.length - w.shape.length)) = true then _ else _) = _
  by_cases h : w.shape.length ≤ t.length ∧ bcastDims w.shape (t.drop (t.length - w.shape.length)) = true
  · rw [if_pos h, if_pos h]
    simp only [Option.map_some, mapA_ofFn]
    congr 1
    exact ofFn_congr fun i hi => get_map hw f (bcastSrc_inB h hi)
  · rw [if_neg h, if_neg h]; rfl

theorem setRow_map (f : α → β) {a w : NArr α} (ha : a.Wf) (hw : w.Wf) {T : List Int} {k out : List Nat}
    (hs : w.shape = out ++ a.shape.drop T.length) (hk : InB out k) (hT : T.length ≤ a.shape.length) :
    setRow (mapA f a) T k (mapA f w) = mapA f (setRow a T k w) := by
  unfold setRow
  show (if inRange a.shape T = true then _ else _) = _
  by_cases h : inRange a.shape T = true
  · rw [if_pos h, if_pos h, mapA_ofFn]
    refine ofFn_congr fun i hi => ?_
    by_cases hc : i.take T.length = T.map Int.toNat
    · rw [if_pos hc, if_pos hc]
      refine get_map hw f ?_
      rw [hs]
      refine hk.append ?_
      have hl : (a.shape.take T.length).length = T.length := by rw [List.length_take]; omega
      have := (show InB (a.shape.take T.length ++ a.shape.drop T.length) i by rw [List.take_append_drop]; exact hi).split.2
      rwa [hl] at this
    · rw [if_neg hc, if_neg hc]
      exact get_map ha f hi
  · rw [if_neg h, if_neg h]

theorem atSet_map (f : α → β) {a w : NArr α} (ha : a.Wf) (hw : w.Wf) {I : Index} {ord : List (List Nat)}
    (ho : ∀ R, resolve I a.shape = some R → ∀ k ∈ ord, InB R.out k) :
    NArr.atSet ord (mapA f a) I (mapA f w) = (NArr.atSet ord a I w).map (mapA f) := by
  unfold NArr.atSet
  show (resolve I a.shape).bind _ = _
  cases hR : resolve I a.shape with
  | none => rfl
  | some R =>
    simp only [Option.bind_some]
    rw [broadcast_map f hw]
    show ((broadcastTo w (R.out ++ a.shape.drop R.m)).map (mapA f)).map _ = _
    cases hb : broadcastTo w (R.out ++ a.shape.drop R.m) with
    | none => rfl
    | some w' =>
      simp only [Option.map_some]
      congr 1
      have hw' : w'.Wf ∧ w'.shape = R.out ++ a.shape.drop R.m := by
        unfold broadcastTo at hb
        split at hb
        · cases hb; exact ⟨ofFn_wf _ _, rfl⟩
        · cases hb
      obtain ⟨_, hm, hsrc⟩ := resolve_append hR []
      have ho := ho R hR
      have key : ∀ (ord : List (List Nat)) (acc : NArr α), acc.Wf → acc.shape = a.shape → (∀ k ∈ ord, InB R.out k) →
          ord.foldl (fun acc k => setRow acc (R.src k) k (mapA f w')) (mapA f acc) = mapA f (ord.foldl (fun acc k => setRow acc (R.src k) k w') acc) := by
        intro ord
        induction ord with
        | nil => intro acc _ _ _; rfl
        | cons k ord ih =>
          intro acc h1 h2 h3
          have hl := hsrc k (h3 k (by simp))
          simp only [List.foldl_cons]
          rw [setRow_map f h1 hw'.1 (out := R.out) (by rw [hw'.2, hl, h2]) (h3 k (by simp)) (by rw [hl, h2]; exact hm)]
          exact ih _ (setRow_wf h1 _ _ _) (by rw [setRow_shape]; exact h2) fun k hk => h3 k (by simp [hk])
      exact key ord a ha rfl ho

/-- Every entry of the result of a scatter is an entry of the array or of the value. -/
theorem atSet_all {P : α → Prop} {x0 : α} (h0 : P x0) {a w : NArr α} (ha : a.Wf) (hw : w.Wf) (hPa : ∀ e ∈ a.data, P e) (hPw : ∀ e ∈ w.data, P e)
    {I : Index} {ord : List (List Nat)} (ho : ∀ R, resolve I a.shape = some R → ∀ k ∈ ord, InB R.out k) :
    ∀ z, NArr.atSet ord a I w = some z → ∀ e ∈ z.data, P e := by
  letI : Inhabited {x : α // P x} := ⟨⟨x0, h0⟩⟩
  have ha' : a = mapA Subtype.val (⟨a.shape, a.data.attachWith P hPa⟩ : NArr {x : α // P x}) := by
    unfold mapA; simp [List.attachWith_map_val]
  have hw' : w = mapA Subtype.val (⟨w.shape, w.data.attachWith P hPw⟩ : NArr {x : α // P x}) := by
    unfold mapA; simp [List.attachWith_map_val]
  intro z hz
  rw [ha', hw', atSet_map Subtype.val (by unfold Wf; rw [List.length_attachWith]; exact ha) (by unfold Wf; rw [List.length_attachWith]; exact hw) ho] at hz
  cases hy : NArr.atSet ord (⟨a.shape, a.data.attachWith P hPa⟩ : NArr {x : α // P x}) I ⟨w.shape, w.data.attachWith P hPw⟩ with
  | none => rw [hy] at hz; cases hz
  | some y =>
    rw [hy] at hz
    cases hz
    intro e he
    obtain ⟨e', _, rfl⟩ := List.mem_map.1 he
    exact e'.2

omit [Inhabited α] [Inhabited β] in
theorem size_zero_data {a : NArr α} (ha : a.Wf) (h : size a.shape = 0) : a.data = [] := by
  unfold Wf at ha; rw [h] at ha; exact List.length_eq_zero_iff.1 ha

end Natural

theorem mapA_comp {α β γ : Type} (f : α → β) (g : β → γ) (a : NArr α) : mapA g (mapA f a) = mapA (fun x => g (f x)) a := by
  simp [mapA, Function.comp_def]

theorem mapA_congr {α β : Type} {f g : α → β} {a : NArr α} (h : ∀ e ∈ a.data, f e = g e) : mapA f a = mapA g a := by
  unfold mapA
  rw [List.map_congr_left h]

theorem mapA_id {α : Type} {f : α → α} {a : NArr α} (h : ∀ e ∈ a.data, f e = e) : mapA f a = a := by
  rw [mapA_congr (g := id) h]
  unfold mapA
  rw [List.map_id]

theorem astype_arr (t : Dt) (a : DArr F) : (a.astype t).arr = mapA (conv a.dtype t) a.arr := rfl

/-! ## `at[index].set` -/

section Set

variable [FloatLaws F]

/-- One field: the entries written are the given ones in the dtype of the field; the others have gone there and back through the common dtype. -/
theorem set_leaf {a v : DArr F} {I : Index} {ord : List (List Nat)} {R : Resolved} (ha : a.arr.Wf) (hv : v.arr.Wf) (htv : ∀ e ∈ v.arr.data, Typed v.dtype e)
    (hR : resolve I a.arr.shape = some R) (hne : size (R.out ++ a.arr.shape.drop R.m) ≠ 0) (ho : ∀ k ∈ ord, InB R.out k) :
    setLeafD ord a I v = (NArr.atSet ord (mapA (around a.dtype v.dtype) a.arr) I (v.astype a.dtype).arr).map fun z => ⟨a.dtype, z⟩ := by
  unfold setLeafD
  simp only [hR, Option.bind_some]
  rw [if_neg hne]
  have h1 : mapA (around a.dtype v.dtype) a.arr = mapA (conv (a.dtype.promote v.dtype) a.dtype) (a.astype (a.dtype.promote v.dtype)).arr := by
    rw [astype_arr, mapA_comp]; rfl
  have h2 : (v.astype a.dtype).arr = mapA (conv (a.dtype.promote v.dtype) a.dtype) (v.astype (a.dtype.promote v.dtype)).arr := by
    rw [astype_arr, astype_arr, mapA_comp]
    exact mapA_congr fun e he => (written (htv e he)).symm
  have h3 := atSet_map (conv (a.dtype.promote v.dtype) a.dtype) (a := (a.astype (a.dtype.promote v.dtype)).arr) (w := (v.astype (a.dtype.promote v.dtype)).arr)
    (I := I) (ord := ord) (mapA_wf ha) (mapA_wf hv) (fun R' hR' => by
      rw [show resolve I a.arr.shape = some R' from hR'] at hR
      cases hR; exact ho)
  rw [h1, h2, h3, Option.map_map]
  rfl

/-- One field, unless it is an integer field given floats: exactly the given entries in the dtype of the field are written, nothing else happens. -/
theorem set_leaf_exact {a v : DArr F} {I : Index} {ord : List (List Nat)} (ha : a.arr.Wf) (hta : ∀ e ∈ a.arr.data, Typed a.dtype e) (hv : v.arr.Wf)
    (htv : ∀ e ∈ v.arr.data, Typed v.dtype e) (hl : ¬ Lossy a.dtype v.dtype) (ho : ∀ R, resolve I a.arr.shape = some R → ∀ k ∈ ord, InB R.out k) :
    (setLeafD ord a I v).getD a = ⟨a.dtype, (NArr.atSet ord a.arr I (v.astype a.dtype).arr).getD a.arr⟩ := by
  cases hR : resolve I a.arr.shape with
  | none =>
    unfold setLeafD NArr.atSet
    simp only [hR, Option.bind_none, Option.getD_none]
  | some R =>
    by_cases hz : size (R.out ++ a.arr.shape.drop R.m) = 0
    · have h1 : setLeafD ord a I v = some a := by
        unfold setLeafD
        simp only [hR, Option.bind_some]
        rw [if_pos hz]
      rw [h1, Option.getD_some]
      have h2 : (NArr.atSet ord a.arr I (v.astype a.dtype).arr).getD a.arr = a.arr := by
        unfold NArr.atSet
        simp only [hR, Option.bind_some]
        cases hb : broadcastTo (v.astype a.dtype).arr (R.out ++ a.arr.shape.drop R.m) with
        | none => rfl
        | some w' =>
          simp only [Option.map_some, Option.getD_some]
          have key : ∀ (ord : List (List Nat)) (acc : NArr (Ent F)), (∀ k ∈ ord, InB R.out k) → acc.Wf → acc.shape = a.arr.shape →
              ord.foldl (fun acc k => setRow acc (R.src k) k w') acc = acc := by
            intro ord
            induction ord with
            | nil => intro acc _ _ _; rfl
            | cons k ord ih =>
              intro acc h hw hs
              simp only [List.foldl_cons]
              have hk := h k (by simp)
              have hsz : size acc.shape = 0 := by
                rw [size_append] at hz
                have h1 := ravel_lt hk
                have h2 : size (a.arr.shape.drop R.m) = 0 := by
                  rcases Nat.mul_eq_zero.1 hz with h | h
                  · omega
                  · exact h
                rw [hs, ← List.take_append_drop R.m a.arr.shape, size_append, h2, Nat.mul_zero]
              have : setRow acc (R.src k) k w' = acc := by
                refine NArr.ext (setRow_wf hw _ _ _) hw (setRow_shape _ _ _ _) fun i hi => ?_
                rw [setRow_shape] at hi
                have := ravel_lt hi
                omega
              rw [this]
              exact ih acc (fun k hk => h k (by simp [hk])) hw hs
          exact key ord a.arr (ho R hR) ha rfl
      rw [h2]
    · rw [set_leaf ha hv htv hR hz (ho R hR), mapA_id fun e he => around_id hl (hta e he)]
      cases NArr.atSet ord a.arr I (v.astype a.dtype).arr <;> rfl

/-- A scatter keeps well-formed arrays of typed entries. -/
theorem set_leaf_good {a v : DArr F} {I : Index} {ord : List (List Nat)} (ha : a.arr.Wf) (hta : ∀ e ∈ a.arr.data, Typed a.dtype e) (hv : v.arr.Wf)
    (htv : ∀ e ∈ v.arr.data, Typed v.dtype e) (ho : ∀ R, resolve I a.arr.shape = some R → ∀ k ∈ ord, InB R.out k) :
    ((NArr.atSet ord a.arr I (v.astype a.dtype).arr).getD a.arr).Wf ∧
      ∀ e ∈ ((NArr.atSet ord a.arr I (v.astype a.dtype).arr).getD a.arr).data, Typed a.dtype e := by
  cases hz : NArr.atSet ord a.arr I (v.astype a.dtype).arr with
  | none => exact ⟨ha, hta⟩
  | some z =>
    obtain ⟨x0, h0⟩ := typed_witness (F := F) a.dtype
    refine ⟨?_, atSet_all h0 ha (mapA_wf hv) hta (fun e he => ?_) ho z hz⟩
    · unfold NArr.atSet at hz
      cases hR : resolve I a.arr.shape with
      | none => rw [hR] at hz; cases hz
      | some R =>
        rw [hR] at hz
        simp only [Option.bind_some] at hz
        cases hb : broadcastTo (v.astype a.dtype).arr (R.out ++ a.arr.shape.drop R.m) with
        | none => rw [hb] at hz; cases hz
        | some w' =>
          rw [hb] at hz
          cases hz
          show (ord.foldl (fun acc k => setRow acc (R.src k) k w') a.arr).Wf
          have key : ∀ (ord : List (List Nat)) (acc : NArr (Ent F)), acc.Wf → (ord.foldl (fun acc k => setRow acc (R.src k) k w') acc).Wf := by
            intro ord
            induction ord with
            | nil => intro acc h; exact h
            | cons k ord ih => intro acc h; exact ih _ (setRow_wf h _ _ _)
          exact key ord a.arr ha
    · obtain ⟨e', he', rfl⟩ := List.mem_map.1 he
      exact conv_typed (htv e' he')

omit [FloatLaws F] in
theorem setLeafD_dtype (ord : List (List Nat)) (a : DArr F) (I : Index) (v : DArr F) : ((setLeafD ord a I v).getD a).dtype = a.dtype := by
  unfold setLeafD
  cases resolve I a.arr.shape with
  | none => rfl
  | some R =>
    simp only [Option.bind_some]
    by_cases hz : size (R.out ++ a.arr.shape.drop R.m) = 0
    · rw [if_pos hz]; rfl
    · rw [if_neg hz]
      cases NArr.atSet ord (a.astype (a.dtype.promote v.dtype)).arr I (v.astype (a.dtype.promote v.dtype)).arr <;> rfl

omit [FloatLaws F] in
/-- **`x.at[index].set(v)` keeps the dtype of every field**, whatever the dtypes of `v`: a container can be the carry of a loop. -/
theorem at_set_keeps_dtypes (ord : List String → List (List Nat)) (I : Index) : ∀ (x v : Inst (DArr F)) (pre : List String), dts (atSetD ord I pre x v) = dts x
  | .nil, v, pre => by cases v <;> rfl
  | .leaf n a r, .nil, pre => rfl
  | .leaf n a r, .nested _ _ _, pre => rfl
  | .leaf n a r, .leaf _ w r', pre => by
    show Inst.leaf n ((setLeafD (ord (pre ++ [n])) a I w).getD a).dtype (dts (atSetD ord I pre r r')) = Inst.leaf n a.dtype (dts r)
    rw [setLeafD_dtype, at_set_keeps_dtypes ord I r r' pre]
  | .nested n x r, .nil, pre => rfl
  | .nested n x r, .leaf _ _ _, pre => rfl
  | .nested n x r, .nested _ v r', pre => by
    show Inst.nested n (dts (atSetD ord I (pre ++ [n]) x v)) (dts (atSetD ord I pre r r')) = Inst.nested n (dts x) (dts r)
    rw [at_set_keeps_dtypes ord I x v, at_set_keeps_dtypes ord I r r']

/-- The positions the scatters go through are positions of the selection. -/
def InOrder (ord : List String → List (List Nat)) (I : Index) (x : Inst (DArr F)) : Prop :=
  ∀ a ∈ leaves x, ∀ R, resolve I a.arr.shape = some R → ∀ p, ∀ k ∈ ord p, InB R.out k

/-- **`x.at[index].set(v)` when no integer field is given floats**: exactly what it would do with `v` converted to the dtypes of `x`; the other entries stay as
they are. -/
theorem at_set_converts (ord : List String → List (List Nat)) (I : Index) : ∀ (x v : Inst (DArr F)) (pre : List String), Good x → Good v → NoLoss (dts x) v →
    InOrder ord I x →
    arrs (atSetD ord I pre x v) = SoA.atSet ord I pre (arrs x) (arrs (castTo (dts x) v)) ∧ Good (atSetD ord I pre x v)
  | .nil, v, pre => fun _ _ _ _ => by cases v <;> exact ⟨rfl, fun a ha => (by cases ha)⟩
  | .leaf n a r, .nil, pre => fun h _ _ _ => ⟨rfl, h⟩
  | .leaf n a r, .nested _ _ _, pre => fun h _ _ _ => ⟨rfl, h⟩
  | .leaf n a r, .leaf m w r', pre => fun hx hv hn ho => by
    have ih := at_set_converts ord I r r' pre (fun b hb => hx b (List.mem_cons_of_mem _ hb)) (fun b hb => hv b (List.mem_cons_of_mem _ hb)) hn.2
      (fun b hb => ho b (List.mem_cons_of_mem _ hb))
    have ha := hx a (List.mem_cons_self ..)
    have hw := hv w (List.mem_cons_self ..)
    have ho' : ∀ R, resolve I a.arr.shape = some R → ∀ k ∈ ord (pre ++ [n]), InB R.out k := fun R hR => ho a (List.mem_cons_self ..) R hR _
    have h1 := set_leaf_exact ha.1 ha.2 hw.1 hw.2 hn.1 ho'
    constructor
    · show Inst.leaf n ((setLeafD (ord (pre ++ [n])) a I w).getD a).arr (arrs (atSetD ord I pre r r')) =
        Inst.leaf n ((NArr.atSet (ord (pre ++ [n])) a.arr I (w.astype a.dtype).arr).getD a.arr) (SoA.atSet ord I pre (arrs r) (arrs (castTo (dts r) r')))
      rw [h1, ih.1]
    · intro b hb
      rcases List.mem_cons.1 hb with rfl | hb
      · rw [h1]; exact set_leaf_good ha.1 ha.2 hw.1 hw.2 ho'
      · exact ih.2 b hb
  | .nested n x r, .nil, pre => fun h _ _ _ => ⟨rfl, h⟩
  | .nested n x r, .leaf _ _ _, pre => fun h _ _ _ => ⟨rfl, h⟩
  | .nested n x r, .nested m v r', pre => fun hx hv hn ho => by
    have h1 := at_set_converts ord I x v (pre ++ [n]) (fun b hb => hx b (List.mem_append_left _ hb)) (fun b hb => hv b (List.mem_append_left _ hb)) hn.1
      (fun b hb => ho b (List.mem_append_left _ hb))
    have h2 := at_set_converts ord I r r' pre (fun b hb => hx b (List.mem_append_right _ hb)) (fun b hb => hv b (List.mem_append_right _ hb)) hn.2
      (fun b hb => ho b (List.mem_append_right _ hb))
    constructor
    · show Inst.nested n (arrs (atSetD ord I (pre ++ [n]) x v)) (arrs (atSetD ord I pre r r')) = _
      rw [h1.1, h2.1]; rfl
    · intro b hb
      rcases List.mem_append.1 hb with hb | hb
      · exact h1.2 b hb
      · exact h2.2 b hb

end Set

end StoreTypes
