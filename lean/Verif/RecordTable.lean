import Verif.RecordTableModel

/-!
# A hash table of dataclass instances behaves as a table of records
-/

namespace Records

open Agg NArr SoA

variable {α : Type} [Inhabited α]

/-! ## Scatters with distinct indices -/

/-- One scatter per field at distinct indices (those outside the array are dropped) writes whole records. -/
theorem set_distinct {n : Nat} {c : Cls α} {x v : Tree α} (h : Conf [n] c x) (idx : List Nat) (hv : Conf [idx.length] c v)
    (ord : List String → List (List Nat)) (ho : ∀ p, (ord p).Perm (indices [idx.length]))
    (hd : ∀ (i j t : Nat), idx[i]? = some t → idx[j]? = some t → t < n → i = j) :
    Conf [n] c (atSet ord (.adv [idx.length] [idx.map Int.ofNat]) [] x v) ∧
      recs n (atSet ord (.adv [idx.length] [idx.map Int.ofNat]) [] x v) = SortGroup.scatterSet (recs n x) idx (recs idx.length v) := by
  obtain ⟨hc, hr⟩ := at_set_records (I := .adv [idx.length] [idx.map Int.ofNat])
    (R := ⟨[idx.length], 1, fun j => [wrapIdx n ((idx.map Int.ofNat).getD (ravel [idx.length] j) 0)]⟩) h hv
    (by simp [resolve]) (Bcast.refl _) ho
  have hsrc : ∀ (j t : Nat), idx[j]? = some t → wrapIdx n ((idx.map Int.ofNat).getD (ravel [idx.length] [j]) 0) = (t : Int) := fun j t hj => by
    have hr : ravel [idx.length] [j] = j := by simp [ravel, NArr.size]
    rw [hr, List.getD_eq_getElem?_getD, List.getElem?_map, hj]
    show wrapIdx n (t : Int) = _
    unfold wrapIdx
    rw [if_neg (by omega)]
  refine ⟨hc, ?_⟩
  apply List.ext_getElem?
  intro t
  rw [recs_getElem?]
  by_cases ht : t < n
  · rw [if_pos ht]
    have h1 := hr [t] [] ⟨ht, trivial⟩ trivial
    simp only [List.append_nil] at h1
    by_cases hm : t ∈ idx
    · obtain ⟨p, hp⟩ := List.mem_iff_getElem?.1 hm
      have hpl : p < idx.length := (List.getElem?_eq_some_iff.1 hp).1
      rw [SortGroup.scatterSet_mem _ _ _ p (item [p] v) t hp (by rw [recs_getElem?, if_pos hpl]) (fun q hq => hd q p t hq hp ht)
        (by rw [recs_length]; exact ht)]
      have hbs : bcastSrc [idx.length] [p] = [p] := by
        show [if idx.length = 1 then 0 else p] = [p]
        by_cases hk1 : idx.length = 1
        · rw [if_pos hk1]; congr 1; omega
        · rw [if_neg hk1]
      have := h1.2 [p] ⟨hpl, trivial⟩ (by rw [hsrc p t hp]; rfl) (fun k' hk' he => by
          cases k' with
          | nil => exact hk'.elim
          | cons q k' =>
            cases k' with
            | cons => exact hk'.2.elim
            | nil =>
              have hq : q < idx.length := hk'.1
              have hqe := List.getElem?_eq_getElem hq
              rw [hsrc q _ hqe] at he
              have hqt : idx[q] = t := by
                have : ((idx[q] : Nat) : Int) = (t : Int) := by simpa using he
                omega
              rw [hqt] at hqe
              rw [hd q p t hqe hp ht])
      rw [this, hbs]
    · rw [SortGroup.scatterSet_not_mem _ _ _ _ hm, recs_getElem?, if_pos ht]
      rw [h1.1 fun k' hk' => by
        cases k' with
        | nil => exact hk'.elim
        | cons q k' =>
          cases k' with
          | cons => exact hk'.2.elim
          | nil =>
            have hq : q < idx.length := hk'.1
            have hqe := List.getElem?_eq_getElem hq
            rw [hsrc q _ hqe]
            intro he
            have hqt : idx[q] = t := by
              have : ((idx[q] : Nat) : Int) = (t : Int) := by simpa using he
              omega
            exact hm (hqt ▸ List.getElem_mem hq)]
  · rw [if_neg ht]
    symm
    apply List.getElem?_eq_none
    have := recs_length n x
    simp only [SortGroup.scatterSet_length]
    omega

/-! ## Default instances of classes with constant fill values -/

/-- Every fill value is a constant, so that all records of `default(b)` are alike. -/
def ConstFill : Cls α → Prop
  | .nil => True
  | .leaf _ _ fill rest => (∃ v, ∀ s, fill s = ⟨[], [v]⟩) ∧ ConstFill rest
  | .nested _ _ sub rest => ConstFill sub ∧ ConstFill rest

theorem default_item {c : Cls α} (hc : ConstFill c) (n : Nat) (t : List Nat) :
    ∃ x d, defaultInst c (n :: t) = some x ∧ defaultInst c t = some d ∧ ∀ k, k < n → item [k] x = d := by
  induction c generalizing t with
  | nil => exact ⟨_, _, rfl, rfl, fun k _ => rfl⟩
  | leaf nm ish f cr ih =>
    obtain ⟨⟨v, hv⟩, hr⟩ := hc
    obtain ⟨x, d, h1, h2, h3⟩ := ih hr t
    refine ⟨.leaf nm (ofFn (n :: t ++ ish) fun _ => v) x, .leaf nm (ofFn (t ++ ish) fun _ => v) d, ?_, ?_, ?_⟩
    · simp only [defaultInst, hv, broadcastTo_scalar, Option.bind_some, h1, Option.map_some]
    · simp only [defaultInst, hv, broadcastTo_scalar, Option.bind_some, h2, Option.map_some]
    · intro k hk
      have hin : InB [n] [k] := ⟨hk, trivial⟩
      have := sub_ofFn (s := [n]) (t := t ++ ish) (j := [k]) (fun _ => v) hin
      show Inst.leaf nm (NArr.sub [k] _) (item [k] x) = _
      rw [h3 k hk]
      congr 1
  | nested nm ish cs cr ih1 ih2 =>
    obtain ⟨h1, h2⟩ := hc
    obtain ⟨x1, d1, a1, a2, a3⟩ := ih1 h1 (t ++ ish)
    obtain ⟨x2, d2, b1, b2, b3⟩ := ih2 h2 t
    refine ⟨.nested nm x1 x2, .nested nm d1 d2, ?_, ?_, ?_⟩
    · have : n :: t ++ ish = n :: (t ++ ish) := rfl
      simp only [defaultInst, this, a1, b1, Option.bind_some, Option.map_some]
    · simp only [defaultInst, a2, b2, Option.bind_some, Option.map_some]
    · intro k hk
      show Inst.nested nm (item [k] x1) (item [k] x2) = _
      rw [a3 k hk, b3 k hk]

/-! ## The table -/

theorem scatterU1_map {β γ : Type} (f : β → γ) (l : List β) (p : Nat) (v : β) :
    Jax.scatterU1 (l.map f) p (f v) = (Jax.scatterU1 l p v).map f := by
  unfold Jax.scatterU1
  rw [List.length_map]
  by_cases h : p < l.length
  · rw [if_pos h, if_pos h, List.map_set]
  · rw [if_neg h, if_neg h]

theorem scatterSet_map {β γ : Type} (f : β → γ) (l : List β) (idx : List Nat) (vs : List β) :
    SortGroup.scatterSet (l.map f) idx (vs.map f) = (SortGroup.scatterSet l idx vs).map f := by
  unfold SortGroup.scatterSet
  induction idx generalizing l vs with
  | nil => rfl
  | cons a idx ih =>
    cases vs with
    | nil => rfl
    | cons v vs =>
      simp only [List.map_cons, List.zip_cons_cons, List.foldl_cons]
      rw [← List.map_set, ih]

theorem mem_scatterSet {β : Type} {l : List β} {idx : List Nat} {vs : List β} {b : β} (h : b ∈ SortGroup.scatterSet l idx vs) : b ∈ l ∨ b ∈ vs := by
  unfold SortGroup.scatterSet at h
  induction idx generalizing l vs with
  | nil => exact Or.inl h
  | cons a idx ih =>
    cases vs with
    | nil => exact Or.inl h
    | cons v vs =>
      rcases ih h with h | h
      · rcases List.mem_or_eq_of_mem_set h with h | h
        · exact Or.inl h
        · exact Or.inr (by simp [h])
      · exact Or.inr (by simp [h])

theorem mem_scatterU1 {β : Type} {l : List β} {p : Nat} {v b : β} (h : b ∈ Jax.scatterU1 l p v) : b ∈ l ∨ b = v := by
  unfold Jax.scatterU1 at h
  by_cases hp : p < l.length
  · rw [if_pos hp] at h; exact List.mem_or_eq_of_mem_set h
  · rw [if_neg hp] at h; exact Or.inl h

variable {V : Type} [DecidableEq V] {K : Type} [KeyTop K] {it : Tree α → V} {H : HashTable.Hasher V} {ord : Order} {c : Cls α} {P : Tree α → Prop}

/-- `table.table` is an instance of the class with one record per slot, and all records satisfy `P`. -/
structure Holding (c : Cls α) (P : Tree α → Prop) (R : RTable α) : Prop where
  conf : Conf [R.slots] c R.store
  all : ∀ r ∈ recs R.slots R.store, P r

/-- `table.table[i]` reads the record of slot `i`. -/
theorem table_read {R : RTable α} (hn : 0 < R.slots) (h : Holding c P R) (i : Nat) :
    ∃ z, R.getitem i = some z ∧ Conf [] c z ∧ P z ∧ HashTable.getitem (R.view it) i = some (it z) := by
  obtain ⟨z, h1, h2, h3⟩ := get_one hn h.conf (i : Int)
  refine ⟨z, h1, h2, h.all z ?_, ?_⟩
  · unfold Jax.gather at h3
    exact List.mem_of_getElem? h3
  · unfold HashTable.getitem Jax.gatherU
    unfold Jax.gather at h3
    rw [Jax.normIdx_nat] at h3
    show ((recs R.slots R.store).map it)[Jax.clampIdx ((recs R.slots R.store).map it).length i]? = _
    rw [List.length_map, List.getElem?_map, h3]
    rfl

/-- What is inserted is a record, or a batch of `n` records, of the class, satisfying `P`. -/
def TOp.Ok (c : Cls α) (P : Tree α → Prop) : TOp α K → Prop
  | .insert x => Conf [] c x ∧ P x
  | .parallelInsert _ _ n xs _ _ => Conf [n] c xs ∧ ∀ r ∈ recs n xs, P r

/-- A call on the instance level as a call on the level of items. -/
def TOp.items (it : Tree α → V) : TOp α K → HashTable.Op V K
  | .insert x => .insert (it x)
  | .parallelInsert be mode n xs filled key => .parallelInsert be mode ((recs n xs).map it) filled key

theorem table_insert (ho : ord.Valid) {R : RTable α} (h : Holding c P R) {x : Tree α} (hx : Conf [] c x) (hP : P x) :
    Holding c P (R.insert it H ord x).1 ∧
      ((R.insert it H ord x).1.view it, (R.insert it H ord x).2) = HashTable.insert H (R.view it) (it x) := by
  obtain ⟨h1, h2⟩ := set_one h.conf hx (ord []) (ho [])
    (HashTable.flat (R.view it) (HashTable.lookupBucket H (R.view it) (it x)).1.1 (HashTable.lookupBucket H (R.view it) (it x)).1.2)
  cases hcan : (!(HashTable.lookupBucket H (R.view it) (it x)).2 &&
      decide (HashTable.rd R.fill (HashTable.lookupBucket H (R.view it) (it x)).1.1 ≤ (HashTable.lookupBucket H (R.view it) (it x)).1.2)) with
  | false =>
    have hcan' : (!(HashTable.lookupBucket H (R.view it) (it x)).2 &&
      decide (HashTable.rd (R.view it).fill (HashTable.lookupBucket H (R.view it) (it x)).1.1 ≤ (HashTable.lookupBucket H (R.view it) (it x)).1.2)) = false := hcan
    unfold RTable.insert HashTable.insert
    simp only [hcan, hcan', Bool.false_eq_true, if_false]
    exact ⟨h, trivial⟩
  | true =>
    have hcan' : (!(HashTable.lookupBucket H (R.view it) (it x)).2 &&
      decide (HashTable.rd (R.view it).fill (HashTable.lookupBucket H (R.view it) (it x)).1.1 ≤ (HashTable.lookupBucket H (R.view it) (it x)).1.2)) = true := hcan
    unfold RTable.insert HashTable.insert
    simp only [hcan, hcan', if_true]
    refine ⟨⟨h1, fun r hr => ?_⟩, ?_⟩
    · have hr : r ∈ recs R.slots (atSet (ord []) (.basic [.int (HashTable.flat (R.view it) (HashTable.lookupBucket H (R.view it) (it x)).1.1
          (HashTable.lookupBucket H (R.view it) (it x)).1.2)]) [] R.store x) := hr
      rw [h2] at hr
      rcases mem_scatterU1 hr with hr | hr
      · exact h.all r hr
      · rw [hr]; exact hP
    · refine Prod.ext ?_ rfl
      show HashTable.Table.mk _ _ _ _ ((recs R.slots _).map it) _ _ _ = HashTable.Table.mk _ _ _ _ (Jax.scatterU1 ((recs R.slots R.store).map it) _ _) _ _ _
      rw [h2, scatterU1_map]
      rfl

theorem safe_distinct {R : RTable α} (hi : HashTable.Inv H (R.view it)) {be : HashTable.Backend} {xs : List V} {filled : List Bool}
    {dd : List Bool × List Nat} (hsel : HashTable.Sel xs filled dd) (i j t : Nat)
    (h1 : (HashTable.safeIdx (R.view it) (HashTable.piOk H (R.view it) be xs filled dd) (HashTable.piFin H (R.view it) be xs filled dd))[i]? = some t)
    (h2 : (HashTable.safeIdx (R.view it) (HashTable.piOk H (R.view it) be xs filled dd) (HashTable.piFin H (R.view it) be xs filled dd))[j]? = some t)
    (ht : t < R.slots) : i = j := by
  have hp := (HashTable.pi_spec be hi hsel).1.placed
  have hfps : (R.view it).fps.length = R.slots := hi.len_fps
  have hok : ∀ i, (HashTable.safeIdx (R.view it) (HashTable.piOk H (R.view it) be xs filled dd) (HashTable.piFin H (R.view it) be xs filled dd))[i]? = some t →
      (HashTable.piOk H (R.view it) be xs filled dd).getD i false = true := by
    intro i h
    unfold HashTable.safeIdx at h
    rw [SortGroup.tab_getElem?] at h
    split at h
    · cases hb : (HashTable.piOk H (R.view it) be xs filled dd).getD i false with
      | true => rfl
      | false =>
        rw [hb] at h
        have : (R.view it).fps.length = t := by simpa using h
        omega
    · cases h
  have a1 := hok i h1
  have a2 := hok j h2
  obtain ⟨r1, r2, r3⟩ := hp.range i a1
  have b1 := (HashTable.safeIdx_iff hi hp r1 r3).2 ⟨a1, rfl⟩
  have e1 : t = _ := Option.some.inj (h1.symm.trans b1)
  rw [e1] at h2
  obtain ⟨_, c2⟩ := (HashTable.safeIdx_iff hi hp r1 r3).1 h2
  exact hp.inj i j a1 a2 c2.symm

theorem table_parallel (ho : ord.Valid) {R : RTable α} (hi : HashTable.Inv H (R.view it)) (h : Holding c P R) (be : HashTable.Backend)
    (mode : Dedupe.Mode) {n : Nat} {xs : Tree α} (hx : Conf [n] c xs) (hP : ∀ r ∈ recs n xs, P r) (filled : List Bool) (key : Option (List K)) :
    Holding c P (R.parallelInsert it be mode H ord n xs filled key).1 ∧
      (R.parallelInsert it be mode H ord n xs filled key).1.view it = (HashTable.parallelInsert be mode H (R.view it) ((recs n xs).map it) filled key).table ∧
      (R.parallelInsert it be mode H ord n xs filled key).2 = HashTable.parallelInsert be mode H (R.view it) ((recs n xs).map it) filled key := by
  have hsel := HashTable.dedupe_sel mode H ((recs n xs).map it) filled key
  have hps := (HashTable.pi_spec be hi hsel).1
  generalize hsafe : HashTable.safeIdx (R.view it)
    (HashTable.piOk H (R.view it) be ((recs n xs).map it) filled (Dedupe.dedupe mode H.toEnc ((recs n xs).map it) filled key))
    (HashTable.piFin H (R.view it) be ((recs n xs).map it) filled (Dedupe.dedupe mode H.toEnc ((recs n xs).map it) filled key)) = safe
  have hlen : safe.length = n := by
    have := hps.placed.len
    rw [List.length_map, recs_length] at this
    rw [← hsafe]
    unfold HashTable.safeIdx
    rw [SortGroup.tab_length]
    exact this
  have hs := set_distinct h.conf safe (v := xs) (by rw [hlen]; exact hx) (ord _) (ho _)
    (fun i j t h1 h2 => by rw [← hsafe] at h1 h2; exact safe_distinct hi hsel i j t h1 h2)
  have hstore : (R.parallelInsert it be mode H ord n xs filled key).1.store = scatterDrop ord R.store safe xs := by
    rw [← hsafe]; rfl
  have hrecs : recs R.slots (R.parallelInsert it be mode H ord n xs filled key).1.store =
      SortGroup.scatterSet (recs R.slots R.store) safe (recs n xs) := by
    rw [hstore]
    unfold scatterDrop
    rw [hs.2, hlen]
  refine ⟨⟨?_, fun r hr => ?_⟩, ?_, rfl⟩
  · rw [hstore]; exact hs.1
  · have hr : r ∈ recs R.slots (R.parallelInsert it be mode H ord n xs filled key).1.store := hr
    rw [hrecs] at hr
    rcases mem_scatterSet hr with hr | hr
    · exact h.all r hr
    · exact hP r hr
  · have h1 : ((R.parallelInsert it be mode H ord n xs filled key).1.view it).table =
        (HashTable.parallelInsert be mode H (R.view it) ((recs n xs).map it) filled key).table.table := by
      show (recs R.slots (R.parallelInsert it be mode H ord n xs filled key).1.store).map it = _
      rw [hrecs, ← scatterSet_map, ← hsafe]
      exact hps.tab.symm
    have e1 : R.cap = (HashTable.parallelInsert be mode H (R.view it) ((recs n xs).map it) filled key).table.cap := hps.ext.cap_eq.symm
    have e2 : R.bs = (HashTable.parallelInsert be mode H (R.view it) ((recs n xs).map it) filled key).table.bs := hps.ext.bs_eq.symm
    have e3 : R.maxProbes = (HashTable.parallelInsert be mode H (R.view it) ((recs n xs).map it) filled key).table.maxProbes := hps.ext.mp_eq.symm
    show HashTable.Table.mk R.cap R.bs R.maxProbes (HashTable.parallelInsert be mode H (R.view it) ((recs n xs).map it) filled key).table.size
      ((R.parallelInsert it be mode H ord n xs filled key).1.view it).table
      (HashTable.parallelInsert be mode H (R.view it) ((recs n xs).map it) filled key).table.fill
      (HashTable.parallelInsert be mode H (R.view it) ((recs n xs).map it) filled key).table.occ
      (HashTable.parallelInsert be mode H (R.view it) ((recs n xs).map it) filled key).table.fps = _
    rw [h1, e1, e2, e3]

/-- One operation. -/
theorem table_run (ho : ord.Valid) {R : RTable α} (hi : HashTable.Inv H (R.view it)) (h : Holding c P R) (op : TOp α K) (hop : op.Ok c P) :
    Holding c P (R.run it H ord op) ∧ (R.run it H ord op).view it = HashTable.run H (R.view it) (op.items it) := by
  cases op with
  | insert x =>
    obtain ⟨h1, h2⟩ := table_insert (it := it) (H := H) ho h hop.1 hop.2
    exact ⟨h1, congrArg Prod.fst h2⟩
  | parallelInsert be mode n xs filled key =>
    obtain ⟨h1, h2, _⟩ := table_parallel (it := it) (H := H) ho hi h be mode hop.1 hop.2 filled key
    exact ⟨h1, h2⟩

theorem table_exec (ho : ord.Valid) {R : RTable α} (hi : HashTable.Inv H (R.view it)) (h : Holding c P R) (ops : List (TOp α K))
    (hops : ∀ op ∈ ops, op.Ok c P) :
    Holding c P (R.exec it H ord ops) ∧ (R.exec it H ord ops).view it = HashTable.exec H (R.view it) (ops.map (TOp.items it)) := by
  induction ops generalizing R with
  | nil => exact ⟨h, rfl⟩
  | cons op ops ih =>
    obtain ⟨h1, h2⟩ := table_run (it := it) (H := H) ho hi h op (hops op (by simp))
    have hi' : HashTable.Inv H ((R.run it H ord op).view it) := by rw [h2]; exact HashTable.run_inv hi _
    obtain ⟨h3, h4⟩ := ih hi' h1 fun op h => hops op (by simp [h])
    refine ⟨h3, ?_⟩
    rw [h2] at h4
    exact h4

/-- What the theorems assume of a value class: constant fill values, so that all records of `default` are one record `d`; `P` says which records
can occur (say, all values within the range of the dtypes), `d` among them. -/
structure Admissible (c : Cls α) (P : Tree α → Prop) : Prop where
  const : ConstFill c
  dflt : ∀ d, defaultInst c [] = some d → P d

/-- **C88, hash table.**  For every value class with constant fill values, all construction parameters and every history of `insert` and
`parallel_insert` (any backend, any dedupe mode, any order of the scatters of the fields): the table of instances holds, slot by slot, records that
stand for exactly the items that the table of items of C16–C27 holds after the same history, with the same bookkeeping. -/
theorem record_table_refines (hc : Admissible c P) (ho : ord.Valid) {capacity bs mult : Nat} {mp : Option Nat}
    (hv : HashTable.ValidParams capacity bs mult mp) (ops : List (TOp α K)) (hops : ∀ op ∈ ops, op.Ok c P) :
    ∃ R d, RTable.build c capacity bs mult mp = some R ∧ defaultInst c [] = some d ∧
      (R.exec it H ord ops).view it = HashTable.exec H (HashTable.build (it d) capacity bs mult mp) (ops.map (TOp.items it)) ∧
      HashTable.Reachable K H ((R.exec it H ord ops).view it) ∧ Holding c P (R.exec it H ord ops) ∧
      ∀ i, ∃ z, (R.exec it H ord ops).getitem i = some z ∧ Conf [] c z ∧ P z ∧ HashTable.getitem ((R.exec it H ord ops).view it) i = some (it z) := by
  obtain ⟨x, d, h1, h2, h3⟩ := default_item hc.const ((HashTable.internalCap capacity bs mult + 1) * bs) []
  have hb : RTable.build c capacity bs mult mp = some
      { cap := HashTable.internalCap capacity bs mult, bs := bs, maxProbes := mp.getD (HashTable.internalCap capacity bs mult * bs), size := 0, store := x,
        fill := List.replicate (HashTable.internalCap capacity bs mult + 1) 0, occ := List.replicate (HashTable.internalCap capacity bs mult + 1) 0,
        fps := List.replicate ((HashTable.internalCap capacity bs mult + 1) * bs) 0 } := by
    unfold RTable.build
    simp only [h1, Option.map_some]
  generalize hR : (RTable.mk (HashTable.internalCap capacity bs mult) bs (mp.getD (HashTable.internalCap capacity bs mult * bs)) 0 x
    (List.replicate (HashTable.internalCap capacity bs mult + 1) 0) (List.replicate (HashTable.internalCap capacity bs mult + 1) 0)
    (List.replicate ((HashTable.internalCap capacity bs mult + 1) * bs) 0) : RTable α) = R at hb
  have hrecs : recs ((HashTable.internalCap capacity bs mult + 1) * bs) x = List.replicate ((HashTable.internalCap capacity bs mult + 1) * bs) d := by
    apply List.ext_getElem?
    intro k
    rw [recs_getElem?, List.getElem?_replicate]
    by_cases hk : k < (HashTable.internalCap capacity bs mult + 1) * bs
    · rw [if_pos hk, if_pos hk, h3 k hk]
    · rw [if_neg hk, if_neg hk]
  have hview : R.view it = HashTable.build (it d) capacity bs mult mp := by
    subst hR
    show HashTable.Table.mk _ _ _ _ ((recs ((HashTable.internalCap capacity bs mult + 1) * bs) x).map it) _ _ _ = _
    rw [hrecs, List.map_replicate]
    rfl
  have hconf : Holding c P R := by
    subst hR
    refine ⟨default_conf_of_eq h1, fun r hr => ?_⟩
    have hr : r ∈ recs ((HashTable.internalCap capacity bs mult + 1) * bs) x := hr
    rw [hrecs] at hr
    rw [(List.mem_replicate.1 hr).2]
    exact hc.dflt d h2
  have hi : HashTable.Inv H (R.view it) := by
    rw [hview]
    exact HashTable.build_inv H (it d) capacity bs mult mp hv.bs_pos hv.bs_le hv.small hv.probes
  obtain ⟨h4, h5⟩ := table_exec (it := it) (H := H) ho hi hconf ops hops
  refine ⟨R, d, hb, h2, by rw [h5, hview], ⟨it d, capacity, bs, mult, mp, ops.map (TOp.items it), hv, by rw [h5, hview]⟩, h4, fun i => table_read ?_ h4 i⟩
  have hinv : HashTable.Inv H ((R.exec it H ord ops).view it) := by rw [h5]; exact HashTable.exec_inv hi _
  have := hinv.bs_pos
  show 0 < ((R.exec it H ord ops).cap + 1) * (R.exec it H ord ops).bs
  exact Nat.mul_pos (Nat.succ_pos _) this

/-- **C88, hash table, read back.**  If records that can occur are told apart by `==`: a record reported as inserted is returned whole, with the
values of all its fields, by `table[i]` for the returned index `i`, after any further history. -/
theorem record_table_insert_read (hc : Admissible c P) (hinj : ∀ z w, P z → P w → it z = it w → z = w) (ho : ord.Valid) {capacity bs mult : Nat}
    {mp : Option Nat} (hv : HashTable.ValidParams capacity bs mult mp) (before after : List (TOp α K)) (hb : ∀ op ∈ before, op.Ok c P)
    (ha : ∀ op ∈ after, op.Ok c P) {x : Tree α} (hx : Conf [] c x) (hP : P x) {R : RTable α} (hR : RTable.build c capacity bs mult mp = some R)
    (hins : ((R.exec it H ord before).insert it H ord x).2.1 = true) :
    (((R.exec it H ord before).insert it H ord x).1.exec it H ord after).getitem ((R.exec it H ord before).insert it H ord x).2.2 = some x := by
  obtain ⟨R', d, h1, h2, h3, h4, h5, h6⟩ := record_table_refines (K := K) (it := it) (H := H) hc ho hv before hb
  rw [h1] at hR
  have hR := Option.some.inj hR
  subst hR
  obtain ⟨h7, h8⟩ := table_insert (it := it) (H := H) ho h5 hx hP
  have hi := h4.inv
  obtain ⟨k1, k2⟩ := Prod.ext_iff.1 h8
  simp only at k1 k2
  have hi' : HashTable.Inv H (((R'.exec it H ord before).insert it H ord x).1.view it) := by
    rw [k1]; exact HashTable.run_inv (K := K) hi (.insert (it x))
  obtain ⟨h9, h10⟩ := table_exec (it := it) (H := H) ho hi' h7 after ha
  have hpos : 0 < (((R'.exec it H ord before).insert it H ord x).1.exec it H ord after).slots := by
    have hinv : HashTable.Inv H ((((R'.exec it H ord before).insert it H ord x).1.exec it H ord after).view it) := by
      rw [h10]; exact HashTable.exec_inv hi' _
    exact Nat.mul_pos (Nat.succ_pos _) hinv.bs_pos
  obtain ⟨z, z1, _, z3, z4⟩ := table_read (it := it) hpos h9 ((R'.exec it H ord before).insert it H ord x).2.2
  rw [h10, k1, k2] at z4
  rw [k2] at hins
  have := (HashTable.inserted_is_found h4 (it x) hins (after.map (TOp.items it))).2
  rw [z4] at this
  rw [z1, hinj z x z3 hP (Option.some.inj this)]

/-- The same for every lane of `parallel_insert` reported as inserted: `table[i]` for the index of lane `l` returns record `l` of the batch. -/
theorem record_table_parallel_read (hc : Admissible c P) (hinj : ∀ z w, P z → P w → it z = it w → z = w) (ho : ord.Valid) {capacity bs mult : Nat}
    {mp : Option Nat} (hv : HashTable.ValidParams capacity bs mult mp) (before after : List (TOp α K)) (hb : ∀ op ∈ before, op.Ok c P)
    (ha : ∀ op ∈ after, op.Ok c P) (be : HashTable.Backend) (mode : Dedupe.Mode) {n : Nat} {xs : Tree α} (hx : Conf [n] c xs)
    (hP : ∀ r ∈ recs n xs, P r) (filled : List Bool) (key : Option (List K))
    {R : RTable α} (hR : RTable.build c capacity bs mult mp = some R) (l : Nat) (hl : l < n)
    (hins : ((R.exec it H ord before).parallelInsert it be mode H ord n xs filled key).2.inserted[l]? = some true) :
    (((R.exec it H ord before).parallelInsert it be mode H ord n xs filled key).1.exec it H ord after).getitem
      (((R.exec it H ord before).parallelInsert it be mode H ord n xs filled key).2.idx.getD l 0) = some (item [l] xs) := by
  obtain ⟨R', d, h1, h2, h3, h4, h5, h6⟩ := record_table_refines (K := K) (it := it) (H := H) hc ho hv before hb
  rw [h1] at hR
  have hR := Option.some.inj hR
  subst hR
  have hi := h4.inv
  obtain ⟨h7, k1, k2⟩ := table_parallel (it := it) (H := H) ho hi h5 be mode hx hP filled key
  have hi' : HashTable.Inv H (((R'.exec it H ord before).parallelInsert it be mode H ord n xs filled key).1.view it) := by
    rw [k1]; exact HashTable.run_inv (K := K) hi (.parallelInsert be mode ((recs n xs).map it) filled key)
  obtain ⟨h9, h10⟩ := table_exec (it := it) (H := H) ho hi' h7 after ha
  have hpos : 0 < (((R'.exec it H ord before).parallelInsert it be mode H ord n xs filled key).1.exec it H ord after).slots := by
    have hinv : HashTable.Inv H ((((R'.exec it H ord before).parallelInsert it be mode H ord n xs filled key).1.exec it H ord after).view it) := by
      rw [h10]; exact HashTable.exec_inv hi' _
    exact Nat.mul_pos (Nat.succ_pos _) hinv.bs_pos
  have hmem : item [l] xs ∈ recs n xs := List.mem_of_getElem? (i := l) (by rw [recs_getElem?, if_pos hl])
  obtain ⟨z, z1, _, z3, z4⟩ := table_read (it := it) hpos h9 (((R'.exec it H ord before).parallelInsert it be mode H ord n xs filled key).2.idx.getD l 0)
  rw [h10, k1, k2] at z4
  rw [k2] at hins
  have := (HashTable.parallel_inserted_is_found h4 be mode ((recs n xs).map it) filled key l (it (item [l] xs))
    (by rw [List.getElem?_map, recs_getElem?, if_pos hl]; rfl) hins (after.map (TOp.items it))).2
  rw [z4] at this
  rw [z1, hinj z _ z3 (hP _ hmem) (Option.some.inj this)]

/-! ## The hypotheses are met -/

/-- The field values of a record of `demoSetC`. -/
def demoItem (z : Tree Nat) : List Nat := (leaves z).flatMap (·.data)

/-- Records of `demoSetC`. -/
def demoP (z : Tree Nat) : Prop := Conf [] demoSetC z

/-- A hasher for triples of numbers: what the value class offers is its three words. -/
def demoHasher : HashTable.Hasher (Nat × Nat × Nat) where
  wc := 3
  words := fun x => [x.1, x.2.1, x.2.2]
  h1 := fun x => x.1 % 2
  h2 := fun _ => 0
  words_length := by simp
  words_inj := by
    rintro ⟨a, b, c⟩ ⟨a', b', c'⟩ h
    simpa using h
  mix := fun a _ => a

/-- The item of a record: its three values. -/
def demoIt (z : Tree Nat) : Nat × Nat × Nat := ((demoItem z).getD 0 0, (demoItem z).getD 1 0, (demoItem z).getD 2 0)

theorem demo_shape {z : Tree Nat} (h : demoP z) : ∃ a b c, z = .leaf "a" ⟨[], [a]⟩ (.leaf "v" ⟨[2], [b, c]⟩ .nil) := by
  match z, h with
  | .leaf n1 ⟨s1, d1⟩ (.leaf n2 ⟨s2, d2⟩ .nil), h =>
    obtain ⟨e1, ⟨w1, e2⟩, e3, ⟨w2, e4⟩, _⟩ := h
    cases e1; cases e3
    have e2 : s1 = [] := e2
    have e4 : s2 = [2] := e4
    subst e2; subst e4
    have w1 : d1.length = 1 := w1
    have w2 : d2.length = 2 := w2
    match d1, d2, w1, w2 with
    | [a], [b, c], _, _ => exact ⟨a, b, c, rfl⟩

theorem demo_inj (z w : Tree Nat) (hz : demoP z) (hw : demoP w) (h : demoIt z = demoIt w) : z = w := by
  obtain ⟨a, b, c, rfl⟩ := demo_shape hz
  obtain ⟨a', b', c', rfl⟩ := demo_shape hw
  have h : (a, b, c) = (a', b', c') := h
  cases h
  rfl

theorem demo_admissible : Admissible demoSetC demoP :=
  ⟨⟨⟨0, fun _ => rfl⟩, ⟨0, fun _ => rfl⟩, trivial⟩, fun _ h => default_conf_of_eq h⟩

/-- A single insertion, a batch with a duplicate of it, and reading back. -/
def demoOps : List (TOp Nat (Option Nat)) :=
  [.insert demoOne,
   .parallelInsert .xla .safe 3 (.leaf "a" ⟨[3], [1, 7, 2]⟩ (.leaf "v" ⟨[3, 2], [3, 4, 8, 9, 5, 6]⟩ .nil)) [true, true, true] none]

example : HashTable.ValidParams 4 2 1 none ∧ ∀ op ∈ demoOps, op.Ok demoSetC demoP := by
  refine ⟨⟨by omega, by omega, by decide +kernel, fun m h => by cases h⟩, ?_⟩
  have hone : Conf [] demoSetC demoOne := ⟨rfl, ⟨rfl, rfl⟩, rfl, ⟨rfl, rfl⟩, trivial⟩
  have hb : Conf [3] demoSetC (.leaf "a" ⟨[3], [1, 7, 2]⟩ (.leaf "v" ⟨[3, 2], [3, 4, 8, 9, 5, 6]⟩ .nil)) := ⟨rfl, ⟨rfl, rfl⟩, rfl, ⟨rfl, rfl⟩, trivial⟩
  intro op hop
  simp only [demoOps, List.mem_cons, List.not_mem_nil, or_false] at hop
  rcases hop with h | h <;> subst h
  · exact ⟨hone, hone⟩
  · refine ⟨hb, fun r hr => ?_⟩
    obtain ⟨k, hk, rfl⟩ := List.mem_map.1 hr
    have hin : InB [3] [k] := ⟨List.mem_range.1 hk, trivial⟩
    exact item_conf (b := [3]) (b' := []) hb hin

/-- The table after the history. -/
def demoTable : Option (RTable Nat) := (RTable.build demoSetC 4 2 1 none).map fun R => R.exec demoIt demoHasher demoOrd demoOps

example : (demoTable.map fun R => (R.size, HashTable.lookup demoHasher (R.view demoIt) (7, 8, 9), HashTable.lookup demoHasher (R.view demoIt) (2, 5, 6))) =
      some (3, (2, true), (0, true)) ∧
    (demoTable.bind fun R => R.getitem 2) = some demoOne ∧
    (demoTable.bind fun R => R.getitem 0) = some (.leaf "a" ⟨[], [2]⟩ (.leaf "v" ⟨[2], [5, 6]⟩ .nil)) := by
  refine ⟨by decide +kernel, by decide +kernel, by decide +kernel⟩

end Records
