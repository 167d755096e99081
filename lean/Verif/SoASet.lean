import Verif.SoAIndex

/-!
# C46: `x.at[index].set(v)` acts on records
-/

namespace NArr

variable {α : Type} [Inhabited α]

theorem inRange_iff {b : List Nat} {T : List Int} (h : T.length ≤ b.length) :
    inRange b T = true ↔ InB (b.take T.length) (T.map Int.toNat) ∧ (T.map Int.toNat).map Int.ofNat = T := by
  induction T generalizing b with
  | nil => cases b <;> simp [inRange, InB]
  | cons i T ih =>
    cases b with
    | nil => simp at h
    | cons d b =>
      simp only [inRange, Bool.and_eq_true, decide_eq_true_eq, List.length_cons, List.take_succ_cons, List.map_cons, InB, List.cons.injEq]
      rw [ih (by simpa using h)]
      have : Int.ofNat i.toNat = i ↔ 0 ≤ i := by
        show ((i.toNat : Nat) : Int) = i ↔ _
        omega
      rw [this]
      constructor
      · rintro ⟨⟨h1, h2⟩, h3, h4⟩; exact ⟨⟨by omega, h3⟩, h1, h4⟩
      · rintro ⟨⟨h1, h2⟩, h3, h4⟩; exact ⟨⟨h3, by omega⟩, h2, h4⟩

theorem inRange_append {b r : List Nat} {T : List Int} (h : T.length ≤ b.length) : inRange (b ++ r) T = inRange b T := by
  induction T generalizing b with
  | nil => cases b <;> cases r <;> rfl
  | cons i T ih =>
    cases b with
    | nil => simp at h
    | cons d b => simp only [List.cons_append, inRange]; rw [ih (by simpa using h)]

theorem setRow_shape (a : NArr α) (T : List Int) (k : List Nat) (w : NArr α) : (setRow a T k w).shape = a.shape := by
  unfold setRow
  split <;> rfl

theorem setRow_wf {a : NArr α} (ha : a.Wf) (T : List Int) (k : List Nat) (w : NArr α) : (setRow a T k w).Wf := by
  unfold setRow
  split
  · exact ofFn_wf _ _
  · exact ha

/-- Row `t` after one update. -/
theorem sub_setRow {a w : NArr α} {b r t k : List Nat} {T : List Int} (hs : a.shape = b ++ r) (hT : T.length = b.length) (ht : InB b t) :
    sub t (setRow a T k w) = if T = t.map Int.ofNat then ofFn r (fun i => w.get (k ++ i)) else sub t a := by
  have hlen := ht.length
  have hle : T.length ≤ b.length := by omega
  have hinr := inRange_iff hle
  rw [List.take_of_length_le (by omega)] at hinr
  unfold setRow
  rw [hs, inRange_append hle]
  by_cases he : T = t.map Int.ofNat
  · have hto : T.map Int.toNat = t := by
      rw [he, List.map_map]
      have : (Int.toNat ∘ Int.ofNat) = id := rfl
      rw [this, List.map_id]
    rw [if_pos he, if_pos (hinr.2 ⟨by rw [hto]; exact ht, by rw [hto]; exact he.symm⟩), sub_ofFn _ ht]
    refine ofFn_congr fun i _ => ?_
    rw [hto, hT, take_append_of_inB ht, if_pos rfl, drop_append_of_inB ht]
  · rw [if_neg he]
    by_cases hr : inRange b T = true
    · rw [if_pos hr, sub_ofFn _ ht, sub_eq hs ht]
      refine ofFn_congr fun i _ => ?_
      rw [hT, take_append_of_inB ht, if_neg]
      intro h
      apply he
      rw [h]
      exact (hinr.1 hr).2.symm
    · rw [if_neg hr]

/-- The scatter, row by row: the last update of a row wins. -/
theorem scatter_rows {a w : NArr α} {b r : List Nat} {src : List Nat → List Int} {ord : List (List Nat)} (ha : a.Wf) (hs : a.shape = b ++ r)
    (hsrc : ∀ k ∈ ord, (src k).length = b.length) {t : List Nat} (ht : InB b t) :
    (ord.foldl (fun acc k => setRow acc (src k) k w) a).Wf ∧ (ord.foldl (fun acc k => setRow acc (src k) k w) a).shape = b ++ r ∧
    ((∀ k ∈ ord, src k ≠ t.map Int.ofNat) → sub t (ord.foldl (fun acc k => setRow acc (src k) k w) a) = sub t a) ∧
    (∀ k, (k ∈ ord ∨ sub t a = ofFn r (fun i => w.get (k ++ i))) → src k = t.map Int.ofNat → (∀ k' ∈ ord, src k' = t.map Int.ofNat → k' = k) →
      sub t (ord.foldl (fun acc k => setRow acc (src k) k w) a) = ofFn r fun i => w.get (k ++ i)) := by
  induction ord generalizing a with
  | nil =>
    refine ⟨ha, hs, fun _ => rfl, fun k hk _ _ => ?_⟩
    rcases hk with hk | hk
    · cases hk
    · exact hk
  | cons k0 ord ih =>
    rw [List.foldl_cons]
    have hs' : (setRow a (src k0) k0 w).shape = b ++ r := by rw [setRow_shape]; exact hs
    obtain ⟨h1, h2, h3, h4⟩ := ih (setRow_wf ha (src k0) k0 w) hs' fun k hk => hsrc k (by simp [hk])
    have hstep := sub_setRow (w := w) (k := k0) hs (hsrc k0 (by simp)) ht
    refine ⟨h1, h2, fun hmiss => ?_, fun k hk hkt hu => ?_⟩
    · rw [h3 fun k hk => hmiss k (by simp [hk]), hstep, if_neg (hmiss k0 (by simp))]
    · apply h4 k _ hkt fun k' hk' => hu k' (by simp [hk'])
      by_cases e : k0 = k
      · subst e
        right
        rw [hstep, if_pos hkt]
      · have hne : src k0 ≠ t.map Int.ofNat := fun h => e (hu k0 (by simp) h)
        rcases hk with hk | hk
        · left
          rcases List.mem_cons.1 hk with h | h
          · exact absurd h.symm e
          · exact h
        · right
          rw [hstep, if_neg hne, hk]

/-- `a.at[index].set(w)` on an array with leading axes `b`. -/
theorem atSet_spec {a w : NArr α} {b bv r : List Nat} {I : Index} {R : Resolved} {ord : List (List Nat)} (ha : a.Wf) (hs : a.shape = b ++ r)
    (hw : w.shape = bv ++ r) (hI : resolve I b = some R) (hbc : Bcast bv (R.out ++ b.drop R.m)) (ho : ord.Perm (indices R.out)) :
    ∃ z, atSet ord a I w = some z ∧ z.Wf ∧ z.shape = b ++ r ∧ ∀ t u, InB (b.take R.m) t → InB (b.drop R.m) u →
      ((∀ k, InB R.out k → R.src k ≠ t.map Int.ofNat) → sub (t ++ u) z = sub (t ++ u) a) ∧
      (∀ k, InB R.out k → R.src k = t.map Int.ofNat → (∀ k', InB R.out k' → R.src k' = t.map Int.ofNat → k' = k) →
        sub (t ++ u) z = sub (bcastSrc bv (k ++ u)) w) := by
  obtain ⟨h1, h2, h3⟩ := resolve_append hI r
  obtain ⟨w', hb1, hb2, hb3, hb4⟩ := broadcastTo_rows hw hbc
  have hdrop : R.out ++ (b ++ r).drop R.m = (R.out ++ b.drop R.m) ++ r := by rw [drop_append_le h2, List.append_assoc]
  have hs2 : a.shape = b.take R.m ++ (b.drop R.m ++ r) := by rw [hs, ← List.append_assoc, List.take_append_drop]
  have hlen : (b.take R.m).length = R.m := by rw [List.length_take]; omega
  have hmem : ∀ k, k ∈ ord ↔ InB R.out k := fun k => by rw [ho.mem_iff, mem_indices]
  have hz : atSet ord a I w = some (ord.foldl (fun acc k => setRow acc (R.src k) k w') a) := by
    unfold atSet
    rw [hs, h1]
    simp only [Option.bind_some]
    rw [hdrop, hb1]
    rfl
  have hrows := fun (t : List Nat) (ht : InB (b.take R.m) t) => scatter_rows (w := w') (src := R.src) (ord := ord) ha hs2
    (fun k hk => by rw [hlen]; exact h3 k ((hmem k).1 hk)) ht
  have hshape : ∀ (ord : List (List Nat)) (a : NArr α), a.Wf → a.shape = b ++ r →
      (ord.foldl (fun acc k => setRow acc (R.src k) k w') a).Wf ∧ (ord.foldl (fun acc k => setRow acc (R.src k) k w') a).shape = b ++ r := by
    intro ord
    induction ord with
    | nil => intro a h1 h2; exact ⟨h1, h2⟩
    | cons k ord ih => intro a h1 h2; exact ih _ (setRow_wf h1 _ _ _) (by rw [setRow_shape]; exact h2)
  obtain ⟨hzw, hzs⟩ := hshape ord a ha hs
  refine ⟨_, hz, hzw, hzs, fun t u ht hu => ?_⟩
  have hzs2 : (ord.foldl (fun acc k => setRow acc (R.src k) k w') a).shape = b.take R.m ++ (b.drop R.m ++ r) := by
    rw [hzs, ← List.append_assoc, List.take_append_drop]
  obtain ⟨_, _, hm, hh⟩ := hrows t ht
  constructor
  · intro hmiss
    rw [← sub_sub hzs2 ht hu, hm fun k hk => hmiss k ((hmem k).1 hk), sub_sub hs2 ht hu]
  · intro k hk hkt huq
    rw [← sub_sub hzs2 ht hu, hh k (Or.inl ((hmem k).2 hk)) hkt fun k' hk' => huq k' ((hmem k').1 hk'), ← hb4 _ (hk.append hu),
      sub_ofFn _ hu, sub_eq hb3 (hk.append hu)]
    exact ofFn_congr fun i _ => by rw [List.append_assoc]

end NArr

namespace SoA

open Agg NArr

variable {α : Type} [Inhabited α]

/-- Leafwise reasoning about `atSet`. -/
theorem atSet_leafwise {P Q S : List Nat → NArr α → Prop} {g h : NArr α → NArr α} {side : Bool} {ord : List String → List (List Nat)} {I : Index}
    {c : Cls α} {e : List Nat} {pre : List String} {x v : Tree α} (hx : ConfP P e c x) (hv : ConfP Q e c v)
    (hl : ∀ p r a w, P r a → Q r w → ∃ z, NArr.atSet (ord p) a I w = some z ∧ S r z ∧ g z = (if side then h w else h a)) :
    ConfP S e c (atSet ord I pre x v) ∧ treeMap g (atSet ord I pre x v) = treeMap h (if side then v else x) := by
  induction x generalizing c e pre v with
  | nil =>
    cases c with
    | nil =>
      cases v with
      | nil => exact ⟨trivial, by cases side <;> rfl⟩
      | leaf => exact hv.elim
      | nested => exact hv.elim
    | leaf => exact hx.elim
    | nested => exact hx.elim
  | leaf n a rest ih =>
    cases c with
    | nil => exact hx.elim
    | nested => exact hx.elim
    | leaf n0 ish f cr =>
      cases v with
      | nil => exact hv.elim
      | nested => exact hv.elim
      | leaf n' w rest' =>
        obtain ⟨z, h1, h2, h3⟩ := hl (pre ++ [n]) _ a w hx.2.1 hv.2.1
        obtain ⟨i1, i2⟩ := ih (pre := pre) hx.2.2 hv.2.2
        simp only [atSet, h1, Option.getD_some]
        refine ⟨⟨hx.1, h2, i1⟩, ?_⟩
        simp only [treeMap]
        rw [i2, h3]
        have hn : n = n' := hx.1.symm.trans hv.1
        cases side <;> simp [treeMap, hn]
  | nested n s rest ih1 ih2 =>
    cases c with
    | nil => exact hx.elim
    | leaf => exact hx.elim
    | nested n0 ish cs cr =>
      cases v with
      | nil => exact hv.elim
      | leaf => exact hv.elim
      | nested n' s' rest' =>
        obtain ⟨j1, j2⟩ := ih1 (pre := pre ++ [n]) hx.2.1 hv.2.1
        obtain ⟨i1, i2⟩ := ih2 (pre := pre) hx.2.2 hv.2.2
        simp only [atSet]
        refine ⟨⟨hx.1, j1, i1⟩, ?_⟩
        simp only [treeMap]
        rw [i2, j2]
        have hn : n = n' := hx.1.symm.trans hv.1
        cases side <;> simp [treeMap, hn]

/-- **C46, update.**  For every class, instance `x` of batch shape `b`, index valid for the batch axes and instance `v` whose batch shape can be
broadcast to the selection: `x.at[index].set(v)` has batch shape `b`; a record addressed by exactly one position `k` of the index becomes
the record of `v` for `k` (in every field, whatever the order of the scatters), a record not addressed keeps its value.  Positions
outside the batch are ignored. -/
theorem at_set_records {b bv : List Nat} {c : Cls α} {x v : Tree α} {I : Index} {R : Resolved} {ord : List String → List (List Nat)}
    (hx : Conf b c x) (hv : Conf bv c v) (hI : resolve I b = some R) (hbc : Bcast bv (R.out ++ b.drop R.m))
    (ho : ∀ p, (ord p).Perm (indices R.out)) :
    Conf b c (atSet ord I [] x v) ∧ ∀ t u, InB (b.take R.m) t → InB (b.drop R.m) u →
      ((∀ k, InB R.out k → R.src k ≠ t.map Int.ofNat) → item (t ++ u) (atSet ord I [] x v) = item (t ++ u) x) ∧
      (∀ k, InB R.out k → R.src k = t.map Int.ofNat → (∀ k', InB R.out k' → R.src k' = t.map Int.ofNat → k' = k) →
        item (t ++ u) (atSet ord I [] x v) = item (bcastSrc bv (k ++ u)) v) := by
  have hleaf : ∀ (p : List String) (r : List Nat) (a w : NArr α), (a.Wf ∧ a.shape = b ++ r) → (w.Wf ∧ w.shape = bv ++ r) →
      ∃ z, NArr.atSet (ord p) a I w = some z ∧ (z.Wf ∧ z.shape = b ++ r) ∧ ∀ t u, InB (b.take R.m) t → InB (b.drop R.m) u →
      ((∀ k, InB R.out k → R.src k ≠ t.map Int.ofNat) → sub (t ++ u) z = sub (t ++ u) a) ∧
      (∀ k, InB R.out k → R.src k = t.map Int.ofNat → (∀ k', InB R.out k' → R.src k' = t.map Int.ofNat → k' = k) →
        sub (t ++ u) z = sub (bcastSrc bv (k ++ u)) w) := fun p r a w ha hw => by
    obtain ⟨z, h1, h2, h3, h4⟩ := atSet_spec ha.1 ha.2 hw.2 hI hbc (ho p)
    exact ⟨z, h1, ⟨h2, h3⟩, h4⟩
  refine ⟨(atSet_leafwise (g := fun _ => default) (h := fun _ => default) (side := false)
      (S := fun r (a : NArr α) => a.Wf ∧ a.shape = b ++ r) hx hv fun p r a w ha hw => ?_).1, fun t u ht hu => ⟨fun hmiss => ?_, fun k hk hkt huq => ?_⟩⟩
  · obtain ⟨z, h1, h2, _⟩ := hleaf p r a w ha hw
    exact ⟨z, h1, h2, by simp⟩
  · refine (atSet_leafwise (g := sub (t ++ u)) (h := sub (t ++ u)) (side := false)
      (S := fun r (a : NArr α) => a.Wf ∧ a.shape = b ++ r) hx hv fun p r a w ha hw => ?_).2
    obtain ⟨z, h1, h2, h3⟩ := hleaf p r a w ha hw
    exact ⟨z, h1, h2, by simpa using (h3 t u ht hu).1 hmiss⟩
  · refine (atSet_leafwise (g := sub (t ++ u)) (h := sub (bcastSrc bv (k ++ u))) (side := true)
      (S := fun r (a : NArr α) => a.Wf ∧ a.shape = b ++ r) hx hv fun p r a w ha hw => ?_).2
    obtain ⟨z, h1, h2, h3⟩ := hleaf p r a w ha hw
    exact ⟨z, h1, h2, by simpa using (h3 t u ht hu).2 k hk hkt huq⟩

/-- `x.at[i].set(record)` for `-n ≤ i < n`: record `i` becomes the given record, every other record keeps its value. -/
theorem at_set_int {n : Nat} {b : List Nat} {c : Cls α} {x v : Tree α} {ord : List String → List (List Nat)} (hx : Conf (n :: b) c x)
    (hv : Conf b c v) {i : Int} (h1 : -(n : Int) ≤ i) (h2 : i < n) (ho : ∀ p, (ord p).Perm (indices [])) :
    Conf (n :: b) c (atSet ord (.basic [.int i]) [] x v) ∧
    item [if i < 0 then (i + n).toNat else i.toNat] (atSet ord (.basic [.int i]) [] x v) = v ∧
    ∀ k, k < n → k ≠ (if i < 0 then (i + n).toNat else i.toNat) → ∀ u, InB b u →
      item (k :: u) (atSet ord (.basic [.int i]) [] x v) = item (k :: u) x := by
  obtain ⟨hc, hr⟩ := at_set_records (I := .basic [.int i]) (R := ⟨[], 1, fun _ => [wrapIdx n i]⟩) hx hv rfl (Bcast.refl _)
    ho
  have hw : wrapIdx n i = ((if i < 0 then (i + n).toNat else i.toNat : Nat) : Int) := by
    unfold wrapIdx
    by_cases hneg : i < 0
    · rw [if_pos hneg, if_pos hneg]; omega
    · rw [if_neg hneg, if_neg hneg]; omega
  have hlt : (if i < 0 then (i + n).toNat else i.toNat) < n := by
    by_cases hneg : i < 0
    · rw [if_pos hneg]; omega
    · rw [if_neg hneg]; omega
  generalize (if i < 0 then (i + n).toNat else i.toNat) = q at *
  refine ⟨hc, ?_, fun k hk hne u hu => ?_⟩
  · -- all sub-records of record q agree
    have hcc := item_conf (j := [q]) (b := [n]) (b' := b) hc ⟨hlt, trivial⟩
    refine conf_ext hcc hv fun u hu => ?_
    rw [item_item (b := [n]) (j := [q]) hc ⟨hlt, trivial⟩ hu]
    have := (hr [q] u ⟨hlt, trivial⟩ hu).2 [] trivial (by simp only [hw]; rfl) (fun k' hk' _ => by cases k' with | nil => rfl | cons => exact hk'.elim)
    rw [this]
    simp only [List.nil_append]
    rw [bcastSrc_self hu]
  · refine (hr [k] u ⟨hk, trivial⟩ hu).1 fun k' hk' => ?_
    simp only [hw]
    intro h
    simp at h
    omega

/-- Non-trivial case: `x.at[-1].set(v)` on a batch of two records with a scalar and a vector field. -/
def demoSetC : Cls Nat := .leaf "a" [] (fun _ => ⟨[], [0]⟩) (.leaf "v" [2] (fun _ => ⟨[], [0]⟩) .nil)

def demoSetX : Tree Nat := .leaf "a" ⟨[2], [1, 2]⟩ (.leaf "v" ⟨[2, 2], [3, 4, 5, 6]⟩ .nil)

example : Conf [2] demoSetC demoSetX ∧ Conf [] demoSetC (.leaf "a" ⟨[], [7]⟩ (.leaf "v" ⟨[2], [8, 9]⟩ .nil)) ∧
    atSet (fun _ => [[]]) (.basic [.int (-1)]) [] demoSetX (.leaf "a" ⟨[], [7]⟩ (.leaf "v" ⟨[2], [8, 9]⟩ .nil)) =
      .leaf "a" ⟨[2], [1, 7]⟩ (.leaf "v" ⟨[2, 2], [3, 4, 8, 9]⟩ .nil) := by
  refine ⟨⟨rfl, ⟨rfl, rfl⟩, rfl, ⟨rfl, rfl⟩, trivial⟩, ⟨rfl, ⟨rfl, rfl⟩, rfl, ⟨rfl, rfl⟩, trivial⟩, ?_⟩
  decide +kernel

/-- The batch shape of the value must fit: a batch of three values assigned to two records leaves every field as it was, without an
exception; and a value fitting only some of the fields updates those and leaves the others. -/
theorem at_set_misfit_silent :
    atSet (fun _ => [[0], [1]]) (.basic [.slice none none none]) [] demoSetX (.leaf "a" ⟨[3], [7, 7, 7]⟩ (.leaf "v" ⟨[3, 2], [8, 8, 8, 8, 8, 8]⟩ .nil)) =
      demoSetX ∧
    atSetRaw (fun _ => [[0], [1]]) (.basic [.slice none none none]) ⟨[2, 2], [7, 7, 7, 7]⟩ [] demoSetX =
      .leaf "a" ⟨[2], [1, 2]⟩ (.leaf "v" ⟨[2, 2], [7, 7, 7, 7]⟩ .nil) := by
  decide +kernel

end SoA
