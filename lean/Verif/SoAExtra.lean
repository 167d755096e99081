import Verif.SoAWhere

/-!
# C46: scalars as values, arguments that do not fit
-/

namespace NArr

variable {α : Type} [Inhabited α]

/-- A scatter that writes the same row everywhere: every addressed row gets it. -/
theorem scatter_const {a w C : NArr α} {b r : List Nat} {src : List Nat → List Int} {ord : List (List Nat)} (ha : a.Wf) (hs : a.shape = b ++ r)
    (hsrc : ∀ k ∈ ord, (src k).length = b.length) (hC : ∀ k ∈ ord, ofFn r (fun i => w.get (k ++ i)) = C) {t : List Nat} (ht : InB b t)
    (hh : sub t a = C ∨ ∃ k ∈ ord, src k = t.map Int.ofNat) :
    sub t (ord.foldl (fun acc k => setRow acc (src k) k w) a) = C := by
  induction ord generalizing a with
  | nil =>
    rcases hh with h | ⟨k, hk, _⟩
    · exact h
    · cases hk
  | cons k0 ord ih =>
    rw [List.foldl_cons]
    have hstep := sub_setRow (w := w) (k := k0) hs (hsrc k0 (by simp)) ht
    refine ih (setRow_wf ha _ _ _) (by rw [setRow_shape]; exact hs) (fun k hk => hsrc k (by simp [hk])) (fun k hk => hC k (by simp [hk])) ?_
    by_cases e : src k0 = t.map Int.ofNat
    · left; rw [hstep, if_pos e]; exact hC k0 (by simp)
    · rcases hh with h | ⟨k, hk, hkt⟩
      · left; rw [hstep, if_neg e]; exact h
      · right
        rcases List.mem_cons.1 hk with h | h
        · subst h; exact absurd hkt e
        · exact ⟨k, h, hkt⟩

theorem atSet_scalar_spec {a : NArr α} {v : α} {b r : List Nat} {I : Index} {R : Resolved} {ord : List (List Nat)} (ha : a.Wf) (hs : a.shape = b ++ r)
    (hI : resolve I b = some R) (ho : ord.Perm (indices R.out)) :
    ∃ z, atSet ord a I ⟨[], [v]⟩ = some z ∧ (z.Wf ∧ z.shape = b ++ r) ∧ ∀ t u, InB (b.take R.m) t → InB (b.drop R.m) u →
      ((∀ k, InB R.out k → R.src k ≠ t.map Int.ofNat) → sub (t ++ u) z = sub (t ++ u) a) ∧
      ((∃ k, InB R.out k ∧ R.src k = t.map Int.ofNat) → sub (t ++ u) z = ofFn r fun _ => v) := by
  obtain ⟨h1, h2, h3⟩ := resolve_append hI r
  have hs2 : a.shape = b.take R.m ++ (b.drop R.m ++ r) := by rw [hs, ← List.append_assoc, List.take_append_drop]
  have hlen : (b.take R.m).length = R.m := by rw [List.length_take]; omega
  have hmem : ∀ k, k ∈ ord ↔ InB R.out k := fun k => by rw [ho.mem_iff, mem_indices]
  generalize hw' : ofFn (R.out ++ (b ++ r).drop R.m) (fun _ => v) = w'
  have hz : atSet ord a I ⟨[], [v]⟩ = some (ord.foldl (fun acc k => setRow acc (R.src k) k w') a) := by
    unfold atSet
    rw [hs, h1]
    simp only [Option.bind_some]
    rw [SoA.broadcastTo_scalar, hw']
    rfl
  have hshape : ∀ (ord : List (List Nat)) (a : NArr α), a.Wf → a.shape = b ++ r →
      (ord.foldl (fun acc k => setRow acc (R.src k) k w') a).Wf ∧ (ord.foldl (fun acc k => setRow acc (R.src k) k w') a).shape = b ++ r := by
    intro ord
    induction ord with
    | nil => intro a h1 h2; exact ⟨h1, h2⟩
    | cons k ord ih => intro a h1 h2; exact ih _ (setRow_wf h1 _ _ _) (by rw [setRow_shape]; exact h2)
  obtain ⟨hzw, hzs⟩ := hshape ord a ha hs
  refine ⟨_, hz, ⟨hzw, hzs⟩, fun t u ht hu => ?_⟩
  have hzs2 : (ord.foldl (fun acc k => setRow acc (R.src k) k w') a).shape = b.take R.m ++ (b.drop R.m ++ r) := by
    rw [hzs, ← List.append_assoc, List.take_append_drop]
  have hsl : ∀ k ∈ ord, (R.src k).length = (b.take R.m).length := fun k hk => by rw [hlen]; exact h3 k ((hmem k).1 hk)
  constructor
  · intro hmiss
    rw [← sub_sub hzs2 ht hu, (scatter_rows (w := w') ha hs2 hsl ht).2.2.1 fun k hk => hmiss k ((hmem k).1 hk), sub_sub hs2 ht hu]
  · rintro ⟨k, hk, hkt⟩
    have hC : ∀ k ∈ ord, ofFn (b.drop R.m ++ r) (fun i => w'.get (k ++ i)) = ofFn (b.drop R.m ++ r) fun _ => v := fun k hk => by
      refine ofFn_congr fun i hi => ?_
      rw [← hw', drop_append_le h2]
      exact get_ofFn _ (((hmem k).1 hk).append hi)
    rw [← sub_sub hzs2 ht hu, scatter_const ha hs2 hsl hC ht (Or.inr ⟨k, (hmem k).2 hk, hkt⟩), sub_ofFn _ hu]

theorem bcastDims_append_iff {s t : List Nat} (h : s.length = t.length) (r : List Nat) : bcastDims (s ++ r) (t ++ r) = bcastDims s t := by
  induction s generalizing t with
  | nil => cases t with
    | nil => simp [bcastDims_refl, bcastDims]
    | cons => simp at h
  | cons d s ih => cases t with
    | nil => simp at h
    | cons e t => simp only [List.cons_append, bcastDims]; rw [ih (by simpa using h)]

/-- A value of the rank of the target that does not broadcast to it. -/
theorem broadcastTo_misfit {w : NArr α} {s t r : List Nat} (hw : w.shape = s ++ r) (hl : s.length = t.length) (h : ¬ Bcast s t) :
    broadcastTo w (t ++ r) = none := by
  have h' : bcastDims s t = false := by
    cases hb : bcastDims s t with
    | false => rfl
    | true => exact absurd ⟨by omega, by rw [show t.length - s.length = 0 by omega]; exact hb⟩ h
  unfold broadcastTo
  rw [if_neg]
  rintro ⟨_, h2⟩
  rw [hw, show (t ++ r).length - (s ++ r).length = 0 by simp; omega, List.drop_zero, bcastDims_append_iff hl, h'] at h2
  cases h2

end NArr

namespace SoA

open Agg NArr

variable {α : Type} [Inhabited α]

/-- Every entry of every array of `x` is `v`. -/
def AllEntries (v : α) (x : Tree α) : Prop := ∀ a ∈ leaves x, ∀ i, InB a.shape i → a.get i = v

theorem atSetRaw_leafwise {P S : List Nat → NArr α → Prop} {g h : NArr α → NArr α} {ord : List String → List (List Nat)} {I : Index} {w : NArr α}
    {c : Cls α} {e : List Nat} {pre : List String} {x : Tree α} (hx : ConfP P e c x)
    (hl : ∀ p r a, P r a → ∃ z, NArr.atSet (ord p) a I w = some z ∧ S r z ∧ g z = h a) :
    ConfP S e c (atSetRaw ord I w pre x) ∧ treeMap g (atSetRaw ord I w pre x) = treeMap h x := by
  induction x generalizing c e pre with
  | nil =>
    cases c with
    | nil => exact ⟨trivial, rfl⟩
    | leaf => exact hx.elim
    | nested => exact hx.elim
  | leaf n a rest ih =>
    cases c with
    | nil => exact hx.elim
    | nested => exact hx.elim
    | leaf =>
      obtain ⟨z, h1, h2, h3⟩ := hl (pre ++ [n]) _ a hx.2.1
      obtain ⟨i1, i2⟩ := ih (pre := pre) hx.2.2
      simp only [atSetRaw, h1, Option.getD_some]
      exact ⟨⟨hx.1, h2, i1⟩, by simp only [treeMap]; rw [i2, h3]⟩
  | nested n s rest ih1 ih2 =>
    cases c with
    | nil => exact hx.elim
    | leaf => exact hx.elim
    | nested =>
      obtain ⟨j1, j2⟩ := ih1 (pre := pre ++ [n]) hx.2.1
      obtain ⟨i1, i2⟩ := ih2 (pre := pre) hx.2.2
      simp only [atSetRaw]
      exact ⟨⟨hx.1, j1, i1⟩, by simp only [treeMap]; rw [i2, j2]⟩

/-- **C46, update with a scalar.**  `x.at[index].set(v)`: every addressed record (however often it is addressed) gets `v` in every entry of every
field, nested ones included; a record not addressed keeps its value. -/
theorem at_set_scalar {b : List Nat} {c : Cls α} {x : Tree α} {v : α} {I : Index} {R : Resolved} {ord : List String → List (List Nat)}
    (hx : Conf b c x) (hI : resolve I b = some R) (ho : ∀ p, (ord p).Perm (indices R.out)) :
    Conf b c (atSetRaw ord I ⟨[], [v]⟩ [] x) ∧ ∀ t u, InB (b.take R.m) t → InB (b.drop R.m) u →
      ((∀ k, InB R.out k → R.src k ≠ t.map Int.ofNat) → item (t ++ u) (atSetRaw ord I ⟨[], [v]⟩ [] x) = item (t ++ u) x) ∧
      ((∃ k, InB R.out k ∧ R.src k = t.map Int.ofNat) → AllEntries v (item (t ++ u) (atSetRaw ord I ⟨[], [v]⟩ [] x))) := by
  refine ⟨(atSetRaw_leafwise (g := fun _ => default) (h := fun _ => default) (S := fun r (a : NArr α) => a.Wf ∧ a.shape = b ++ r) hx
    fun p r a ha => ?_).1, fun t u ht hu => ⟨fun hmiss => ?_, fun hex => ?_⟩⟩
  · obtain ⟨z, h1, h2, _⟩ := atSet_scalar_spec (v := v) ha.1 ha.2 hI (ho p)
    exact ⟨z, h1, h2, rfl⟩
  · refine (atSetRaw_leafwise (S := fun _ _ => True) (g := sub (t ++ u)) (h := sub (t ++ u)) hx fun p r a ha => ?_).2
    obtain ⟨z, h1, _, h3⟩ := atSet_scalar_spec (v := v) ha.1 ha.2 hI (ho p)
    exact ⟨z, h1, trivial, (h3 t u ht hu).1 hmiss⟩
  · have := (atSetRaw_leafwise (S := fun _ _ => True) (pre := []) (g := sub (t ++ u)) (h := fun a => ofFn (a.shape.drop b.length) fun _ => v) (ord := ord) (I := I) (w := ⟨[], [v]⟩) hx fun p r a ha => by
      obtain ⟨z, h1, _, h3⟩ := atSet_scalar_spec (v := v) ha.1 ha.2 hI (ho p)
      exact ⟨z, h1, trivial, by rw [(h3 t u ht hu).2 hex, ha.2, List.drop_left]⟩).2
    intro a ha i hi
    unfold item at ha
    rw [this, leaves_treeMap] at ha
    obtain ⟨a', _, rfl⟩ := List.mem_map.1 ha
    exact get_ofFn _ hi

/-- Non-trivial case: `x.at[[0, 0]].set(7)`, a nested field included. -/
example : atSetRaw (fun _ => [[0], [1]]) (.adv [2] [[0, 0]]) ⟨[], [7]⟩ [] (.nested "s" demoSetX (.leaf "b" ⟨[2], [5, 6]⟩ .nil)) =
    .nested "s" (.leaf "a" ⟨[2], [7, 2]⟩ (.leaf "v" ⟨[2, 2], [7, 7, 5, 6]⟩ .nil)) (.leaf "b" ⟨[2], [7, 6]⟩ .nil) := by decide +kernel

/-- **A value that does not fit is ignored without an exception**: when the batch shape of `v` has the rank of the selection but cannot be broadcast
to it, `x.at[index].set(v)` is `x`. -/
theorem at_set_misfit {b bv : List Nat} {c : Cls α} {x v : Tree α} {I : Index} {R : Resolved} {ord : List String → List (List Nat)}
    (hx : Conf b c x) (hv : Conf bv c v) (hI : resolve I b = some R) (hl : bv.length = (R.out ++ b.drop R.m).length)
    (hbc : ¬ Bcast bv (R.out ++ b.drop R.m)) : atSet ord I [] x v = x := by
  have hleaf : ∀ (p : List String) (r : List Nat) (a w : NArr α), (a.Wf ∧ a.shape = b ++ r) → (w.Wf ∧ w.shape = bv ++ r) →
      NArr.atSet (ord p) a I w = none := fun p r a w ha hw => by
    obtain ⟨h1, h2, _⟩ := resolve_append hI r
    unfold NArr.atSet
    rw [ha.2, h1]
    simp only [Option.bind_some]
    rw [drop_append_le h2, ← List.append_assoc, broadcastTo_misfit hw.2 hl hbc]
    rfl
  unfold Conf at hx hv
  generalize ([] : List Nat) = e at hx hv
  generalize ([] : List String) = pre
  clear hI hbc hl
  induction x generalizing c e pre v with
  | nil => cases v <;> rfl
  | leaf n a rest ih =>
    cases c with
    | nil => exact hx.elim
    | nested => exact hx.elim
    | leaf =>
      cases v with
      | nil => exact hv.elim
      | nested => exact hv.elim
      | leaf n' w rest' => simp only [atSet, hleaf _ _ _ _ hx.2.1 hv.2.1, Option.getD_none]; rw [ih e hx.2.2 hv.2.2]
  | nested n s rest ih1 ih2 =>
    cases c with
    | nil => exact hx.elim
    | leaf => exact hx.elim
    | nested =>
      cases v with
      | nil => exact hv.elim
      | leaf => exact hv.elim
      | nested n' s' rest' => simp only [atSet]; rw [ih1 _ hx.2.1 hv.2.1, ih2 e hx.2.2 hv.2.2]

/-- The same for `set_as_condition`: a batch of values whose length is neither 1 nor the number of updates, or an index array of another length than
the condition, leaves the instance as it is; `update_on_condition` raises. -/
theorem set_as_condition_misfit {n : Nat} {b bv : List Nat} {c : Cls α} {x v : Tree α} {idx : List Int} {cond : List Bool} {ord : List String → List Nat}
    (hx : Conf (n :: b) c x) (hv : Conf bv c v) (h0 : cond ≠ [])
    (hbad : (bv.length = b.length + 1 ∧ ¬ Bcast bv (cond.length :: b)) ∨ (Bcast bv (cond.length :: b) ∧ idx.length ≠ cond.length)) :
    setAsCondition ord idx cond [] x v = x ∧ (c ≠ .nil → c.HasFields → updateOnCondition ord idx cond [] x v = none) := by
  have hc0 : cond.length ≠ 0 := fun h => h0 (List.length_eq_zero_iff.1 h)
  have hleaf : ∀ (p : List String) (r : List Nat) (a w : NArr α), (a.Wf ∧ a.shape = (n :: b) ++ r) → (w.Wf ∧ w.shape = bv ++ r) →
      updateLeaf idx cond (ord p) a w = none := fun p r a w ha hw => by
    unfold updateLeaf
    rw [if_neg hc0, if_neg (by rw [ha.2]; simp), show cond.length :: a.shape.tail = (cond.length :: b) ++ r by rw [ha.2]; rfl]
    rcases hbad with ⟨h1, h2⟩ | ⟨h1, h2⟩
    · rw [broadcastTo_misfit hw.2 (by simpa using h1) h2]; rfl
    · obtain ⟨w', hw', _⟩ := broadcastTo_rows hw.2 h1
      rw [hw']
      simp only [Option.bind_some]
      unfold Update.update
      rw [if_neg hc0, if_pos (fun h => h2 h.symm)]
      rfl
  unfold Conf at hx hv
  generalize ([] : List Nat) = e at hx hv
  generalize ([] : List String) = pre
  clear hbad h0
  induction x generalizing c e pre v with
  | nil =>
    cases c with
    | nil => exact ⟨by cases v <;> rfl, fun h => absurd rfl h⟩
    | leaf => exact hx.elim
    | nested => exact hx.elim
  | leaf nm a rest ih =>
    cases c with
    | nil => exact hx.elim
    | nested => exact hx.elim
    | leaf =>
      cases v with
      | nil => exact hv.elim
      | nested => exact hv.elim
      | leaf n' w rest' =>
        simp only [setAsCondition, updateOnCondition, hleaf _ _ _ _ hx.2.1 hv.2.1, Option.getD_none]
        rw [(ih e hx.2.2 hv.2.2 pre).1]
        refine ⟨rfl, fun _ _ => ?_⟩
        simp
  | nested nm s rest ih1 ih2 =>
    cases c with
    | nil => exact hx.elim
    | leaf => exact hx.elim
    | nested =>
      cases v with
      | nil => exact hv.elim
      | leaf => exact hv.elim
      | nested n' s' rest' =>
        obtain ⟨j1, j2⟩ := ih1 _ hx.2.1 hv.2.1 (pre ++ [nm])
        simp only [setAsCondition, updateOnCondition]
        rw [j1, (ih2 e hx.2.2 hv.2.2 pre).1]
        refine ⟨rfl, fun _ hf => ?_⟩
        rw [j2 hf.1 hf.2.1]
        simp

/-- Non-trivial case: three values for two updates. -/
example : setAsCondition (fun _ => [0, 1]) [0, 1] [true, true] [] demoSetX (.leaf "a" ⟨[3], [7, 7, 7]⟩ (.leaf "v" ⟨[3, 2], [8, 8, 8, 8, 8, 8]⟩ .nil)) = demoSetX ∧
    ¬ Bcast [3] [2] := by
  refine ⟨by decide +kernel, fun h => ?_⟩
  have := h.2
  simp [bcastDims] at this

/-! ## `concat` -/

/-- **`concat` raises** for an axis that is not below the number of batch axes, and for instances that disagree in the number of batch axes or in the
length of another axis than the one given. -/
theorem concat_raises {bs : List (List Nat)} {b0 : List Nat} {c : Cls α} {xs : List (Tree α)} {ax : Nat} (hne : c ≠ .nil) (hc : c.HasFields)
    (h : Confs bs c xs) (h2 : 2 ≤ xs.length) (h0 : bs[0]? = some b0) (hb0 : b0 ≠ [])
    (hbad : b0.length ≤ ax ∨ ∃ b ∈ bs, b.length ≠ b0.length ∨ ∃ i, i < b0.length ∧ i ≠ ax ∧ b.getD i 0 ≠ b0.getD i 0) :
    concat c xs (ax : Int) = none := by
  match xs, bs, h2 with
  | x :: y :: ys, [], _ => simp at h0
  | x :: y :: ys, b :: bs, _ =>
    simp only [List.getElem?_cons_zero, Option.some.injEq] at h0
    subst h0
    have hx := h.2 0 x b rfl rfl
    unfold concat
    dsimp only
    cases hm : (y :: ys).mapM fun z => structuredType c z with
    | none => simp
    | some ts =>
      rw [(derived_of_conf hne hc hx).2.2]
      simp only [Option.bind_some]
      by_cases hall : ¬ ts.all (· == if b = [] then SType.single else .batched) = true
      · rw [if_neg hall]
      rw [if_pos (Decidable.not_not.1 hall), if_neg hb0]
      dsimp only
      have hbs : (y :: ys).mapM (fun z => (batchShape c z).bind tupOf) = some bs := by
        refine mapM_getElem (by have := h.1; simpa using this) fun k z b' hz hb' => ?_
        rw [batchShape_of_conf hne hc (h.2 (k + 1) z b' hz hb')]
        rfl
      rw [batchShape_of_conf hne hc hx, hbs]
      simp only [Option.bind_some, tupOf]
      rw [if_neg]
      unfold concatChecks
      simp only [Bool.and_eq_true, decide_eq_true_eq, List.all_eq_true, not_and]
      intro h1 h2
      rw [if_pos (by omega)] at h1 h2
      rcases hbad with hbad | ⟨b', hb', hbad⟩
      · omega
      · rcases List.mem_cons.1 hb' with rfl | hb'
        · rcases hbad with h | ⟨i, _, _, h⟩ <;> exact h rfl
        · obtain ⟨h3, h4⟩ := h2 b' hb'
          rcases hbad with h | ⟨i, hi1, hi2, hi3⟩
          · exact h (by simpa using h3)
          · have := h4 i (List.mem_range.2 hi1)
            simp only [Bool.or_eq_true, beq_iff_eq] at this
            rcases this with h | h
            · omega
            · exact hi3 h.symm

/-- Non-trivial case: the axis is an intrinsic one. -/
example : concat demoSetC [demoSetX, demoSetX] 1 = none := by decide +kernel

/-! ## `pad` of a single record with a constant -/

theorem pad_single_const {c : Cls α} {x : Tree α} {w : PadWidth} {lo hi : Nat} {v : α} {ord : List String → List (List Nat)} (hne : c ≠ .nil)
    (hc : c.HasFields) (h : Conf [] c x) (hw : normalizePad w 1 = some (intPads [(lo, hi)])) :
    (lo = 0 ∧ hi = 0 → pad c ord x w (some v) = some x) ∧
    (¬ (lo = 0 ∧ hi = 0) → ∃ z, pad c ord x w (some v) = some z ∧ Conf [1 + lo + hi] c z ∧ item [lo] z = x ∧
      ∀ k, k < 1 + lo + hi → k ≠ lo → AllEntries v (item [k] z)) := by
  have h0 := intPads_zero (pads := [(lo, hi)])
  obtain ⟨e, he, hec⟩ := mapM_spec (f := fun a => a.expandDims 0) (b' := [1]) h fun r a ha hs => by
    obtain ⟨z, h1, h2, h3, _⟩ := expandDims_spec (ax := 0) ha hs (Nat.le_refl _)
    exact ⟨z, h1, h2, h3⟩
  have hei : item [0] e = x := by
    have : item [0] e = item [] x := mapM_item h he fun r a w ha hs hw' => by
      obtain ⟨z, h1, _, _, h4⟩ := expandDims_spec (ax := 0) ha hs (Nat.le_refl _)
      rw [show ((0 : Nat) : Int) = 0 from rfl] at h1
      rw [h1] at hw'
      cases hw'
      exact h4 [] trivial
    rw [this]
    exact treeMap_id fun a ha => sub_nil (conf_leaves h a ha).1
  have hl : [(lo, hi)].length = [1].length := rfl
  unfold pad
  rw [batchShape_of_conf hne hc h]
  simp only [Option.bind_some]
  rw [hw]
  simp only [Option.bind_some]
  rw [intPads_nonneg]
  simp only [Bool.false_eq_true, if_false]
  refine ⟨fun h1 => ?_, fun h1 => ?_⟩
  · rw [if_pos (h0.2 (by simp [h1]))]
  · rw [if_neg fun hh => h1 (by have := h0.1 hh (lo, hi) (by simp); simpa using this), he]
    simp only [Option.bind_some]
    have hwid : (intPads [(lo, hi)]).map (fun q => (q.1.toNat, q.2.toNat)) = [(lo, hi)] := rfl
    rw [hwid]
    obtain ⟨z, hz, hzc⟩ := mapM_spec (f := fun a => padConst v a ([(lo, hi)] ++ List.replicate (a.shape.length - 1) (0, 0)))
      (b' := padded [1] [(lo, hi)]) hec fun r a ha hs => by
        obtain ⟨z, h1, h2, h3, _⟩ := padConst_spec (v := v) hs hl
        exact ⟨z, h1, h2, h3⟩
    refine ⟨z, hz, hzc, ?_, fun k hk hkl => ?_⟩
    · rw [← hei]
      refine mapM_item hec hz fun r a w ha hs hw' => ?_
      obtain ⟨z', g1, _, _, g4, _⟩ := padConst_spec (v := v) hs hl
      rw [show ([1] : List Nat).length = 1 from rfl] at g1
      rw [g1] at hw'
      cases hw'
      have := g4 [0] ⟨by omega, trivial⟩
      simpa [shift] using this
    · have : item [k] z = treeMap (fun a => ofFn (a.shape.drop 1) fun _ => v) e := by
        refine treeMapM_map hz fun a ha w hw' => ?_
        obtain ⟨_, r, hs⟩ := conf_leaves hec a ha
        obtain ⟨z', g1, _, _, _, g5⟩ := padConst_spec (v := v) hs hl
        rw [show ([1] : List Nat).length = 1 from rfl] at g1
        rw [g1] at hw'
        cases hw'
        rw [g5 [k] ⟨by omega, trivial⟩ fun j hj hk' => ?_, hs]
        · rfl
        · cases j with
          | nil => exact hj.elim
          | cons i j =>
            have : i = 0 := by have := hj.1; omega
            subst this
            simp only [shift, List.zipWith_cons_cons, List.cons.injEq] at hk'
            omega
      intro a ha i hi'
      rw [this, leaves_treeMap] at ha
      obtain ⟨a', _, rfl⟩ := List.mem_map.1 ha
      exact get_ofFn _ hi'

example : pad demoSetC (fun _ => []) (.leaf "a" ⟨[], [1]⟩ (.leaf "v" ⟨[2], [3, 4]⟩ .nil)) (.ints [1, 0]) (some 9) =
    some (.leaf "a" ⟨[2], [9, 1]⟩ (.leaf "v" ⟨[2, 2], [9, 9, 3, 4]⟩ .nil)) := by decide +kernel

/-! ## `where` with a scalar value -/

theorem treeMapM_treeMap {β γ δ : Type} (f : γ → Option δ) (g : β → γ) (x : Inst β) : treeMapM f (treeMap g x) = treeMapM (fun v => f (g v)) x := by
  induction x with
  | nil => rfl
  | leaf n v rest ih => simp only [treeMap, treeMapM, ih]
  | nested n s rest ih1 ih2 => simp only [treeMap, treeMapM, ih1, ih2]

/-- The instance of the shapes of `x` with `v` in every entry. -/
def fillWith (v : α) (x : Tree α) : Tree α := treeMap (fun a => ofFn a.shape fun _ => v) x

theorem fillWith_entries (v : α) (x : Tree α) : AllEntries v (fillWith v x) := by
  intro a ha i hi
  unfold fillWith at ha
  rw [leaves_treeMap] at ha
  obtain ⟨a', _, rfl⟩ := List.mem_map.1 ha
  exact get_ofFn _ hi

theorem fillWith_conf {b : List Nat} {c : Cls α} {x : Tree α} (v : α) (h : Conf b c x) : Conf b c (fillWith v x) :=
  confP_map h fun _ _ ha => ⟨ofFn_wf _ _, ha.2⟩

/-- **`where(condition, x, v)` with a scalar** is `where` with the instance that has `v` in every entry. -/
theorem where_raw (cond : NArr Bool) (x : Tree α) (v : α) : whereRaw cond x ⟨[], [v]⟩ = whereInst cond x (fillWith v x) := by
  unfold whereInst whereRaw fillWith
  have := zip_treeMap id (fun a : NArr α => ofFn a.shape fun _ => v) x x
  rw [treeMap_id (f := id) fun _ _ => rfl, zip_self] at this
  rw [this]
  simp only [Option.map_some, Option.bind_some]
  rw [treeMapM_treeMap, treeMapM_treeMap]
  congr 1
  funext a
  unfold whereLeaf
  simp only [id_eq]
  rw [broadcastTo_scalar]
  have : broadcastTo (ofFn a.shape fun _ => v) a.shape = some (ofFn a.shape fun _ => v) := broadcastTo_self (ofFn_wf _ _)
  rw [this]

/-- Record by record, for conditions as in `where_records_partial`. -/
theorem where_raw_records_partial {b bc : List Nat} {c : Cls α} {x : Tree α} {v : α} {cond : NArr Bool} {m : Nat} (hx : Conf b c x) (hm : IntrinsicRank m c x)
    (hc : cond.shape = bc ++ List.replicate m 1) (hbc : Bcast bc b) :
    ∃ z, whereRaw cond x ⟨[], [v]⟩ = some z ∧ Conf b c z ∧ ∀ j, InB b j →
      (cond.get (bcastSrc bc j ++ List.replicate m 0) = true → item j z = item j x) ∧
      (cond.get (bcastSrc bc j ++ List.replicate m 0) = false → AllEntries v (item j z)) := by
  obtain ⟨z, h1, h2, h3⟩ := where_records_partial hx hm (fillWith_conf v hx) hc hbc
  rw [where_raw]
  refine ⟨z, h1, h2, fun j hj => ⟨fun h => by rw [h3 j hj, if_pos h], fun h => ?_⟩⟩
  rw [h3 j hj, if_neg (by simp [h])]
  intro a ha i hi
  unfold item at ha
  rw [leaves_treeMap] at ha
  obtain ⟨a', ha', rfl⟩ := List.mem_map.1 ha
  obtain ⟨_, r, hr⟩ := conf_leaves (fillWith_conf v hx) a' ha'
  rw [sub_shape, hr, drop_of_inB hj] at hi
  rw [get_sub hr hj hi]
  exact fillWith_entries v x a' ha' _ (by rw [hr]; exact hj.append hi)

example : whereRaw ⟨[2], [true, false]⟩ (.leaf "a" ⟨[2], [1, 2]⟩ .nil) ⟨[], [9]⟩ = some (.leaf "a" ⟨[2], [1, 9]⟩ .nil : Tree Nat) := by decide +kernel

end SoA
