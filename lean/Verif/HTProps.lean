import Verif.HTParallel

/-!
# Hash table properties C16-C21, C25-C27

Specification vocabulary:
* `Occupied T i`  — global slot index `i` holds an item (its slot number is below the fill level of its bucket);
* `Stored T x i`  — slot `i` is occupied and `table[i]` is `x`;
* `Op`, `run`, `exec` — operations of the API and histories;
* `Reachable H T` — `T` is the result of some history on a freshly built table.
-/

namespace HashTable

open Jax SortGroup Dedupe DedupeSpec

variable {α : Type u} [DecidableEq α]

/-- Slot `i` is occupied. -/
def Occupied (T : Table α) (i : Nat) : Prop := i < T.cap * T.bs ∧ i % T.bs < T.fill.getD (i / T.bs) 0

instance (T : Table α) (i : Nat) : Decidable (Occupied T i) := by unfold Occupied; infer_instance

/-- Slot `i` is occupied by `x`, as seen through `table[i]`. -/
def Stored (T : Table α) (x : α) (i : Nat) : Prop := Occupied T i ∧ getitem T i = some x

/-- Operations that change a table. -/
inductive Op (α : Type u) (K : Type v)
  | insert (x : α)
  | parallelInsert (be : Backend) (mode : Mode) (xs : List α) (filled : List Bool) (key : Option (List K))

variable {K : Type v} [KeyTop K]

/-- Effect of an operation on the table. -/
def run (H : Hasher α) (T : Table α) : Op α K → Table α
  | .insert x => (insert H T x).1
  | .parallelInsert be mode xs filled key => (parallelInsert be mode H T xs filled key).table

/-- Number of `True` values among the `inserted` flags returned by an operation. -/
def insertedCount (H : Hasher α) (T : Table α) : Op α K → Nat
  | .insert x => (insert H T x).2.1.toNat
  | .parallelInsert be mode xs filled key => (parallelInsert be mode H T xs filled key).inserted.countP id

/-- A history. -/
def exec (H : Hasher α) (T : Table α) (ops : List (Op α K)) : Table α := ops.foldl (run H) T

/-- Number of `True` values in all `inserted` flags of a history. -/
def insertedTotal (H : Hasher α) : Table α → List (Op α K) → Nat
  | _, [] => 0
  | T, op :: ops => insertedCount H T op + insertedTotal H (run H T op) ops

/-- Supported construction parameters: at least one and at most 255 slots per bucket, fewer than `2 ^ 31` slots, and
`max_probes` left at its default or at least the number of slots. -/
structure ValidParams (capacity bs mult : Nat) (mp : Option Nat) : Prop where
  bs_pos : 1 ≤ bs
  bs_le : bs ≤ 255
  small : (internalCap capacity bs mult + 1) * bs < 2 ^ 31
  probes : ∀ m, mp = some m → internalCap capacity bs mult * bs ≤ m

/-- `T` results from some history on a freshly built table. -/
def Reachable (K : Type v) [KeyTop K] (H : Hasher α) (T : Table α) : Prop :=
  ∃ (d : α) (capacity bs mult : Nat) (mp : Option Nat) (ops : List (Op α K)),
    ValidParams capacity bs mult mp ∧ T = exec H (build d capacity bs mult mp) ops

variable {H : Hasher α} {T : Table α}

/-! ## Glue -/

theorem dedupe_sel (mode : Mode) (H : Hasher α) (xs : List α) (filled : List Bool) (key : Option (List K)) :
    Sel xs filled (dedupe mode H.toEnc xs filled key) := by
  have hconv : ∀ i, (dedupe mode H.toEnc xs filled key).1.getD i false = true →
      (dedupe mode H.toEnc xs filled key).1[i]? = some true := by
    intro i h
    rw [List.getD_eq_getElem?_getD] at h
    cases he : (dedupe mode H.toEnc xs filled key).1[i]? with
    | none => rw [he] at h; cases h
    | some v => rw [he] at h; simp only [Option.getD_some] at h; rw [h]
  refine ⟨?_, ?_, ?_⟩
  · intro i hi h
    have := (dedupe_selected_distinct mode H.toEnc xs filled key hi hi (hconv i h) (hconv i h) rfl).2.1
    rw [List.getD_eq_getElem?_getD, this]; rfl
  · intro i k x h1 h2 h3 h4
    exact (dedupe_selected_distinct mode H.toEnc xs filled key (List.getElem?_eq_some_iff.1 h3).1
      (List.getElem?_eq_some_iff.1 h4).1 (hconv i h1) (hconv k h2) (by rw [h3, h4])).1
  · intro i hi h
    exact (dedupe_selected_distinct mode H.toEnc xs filled key hi hi (hconv i h) (hconv i h) rfl).2.2

theorem divmod_flat {b s n : Nat} (hs : s < n) : (b * n + s) / n = b ∧ (b * n + s) % n = s := by
  constructor
  · rw [Nat.mul_comm, Nat.mul_add_div (by omega), Nat.div_eq_of_lt hs]; rfl
  · rw [Nat.mul_comm, Nat.mul_add_mod, Nat.mod_eq_of_lt hs]

theorem stored_iff (hi : Inv H T) (x : α) (i : Nat) :
    Stored T x i ↔ ∃ b s, b < T.cap ∧ i = b * T.bs + s ∧ Has T x b s := by
  have hsh := hi.toShape
  constructor
  · rintro ⟨⟨h1, h2⟩, h3⟩
    have hb : i / T.bs < T.cap := by
      apply Nat.div_lt_of_lt_mul; rw [Nat.mul_comm]; exact h1
    have he : i = i / T.bs * T.bs + i % T.bs := by rw [Nat.mul_comm]; exact (Nat.div_add_mod i T.bs).symm
    refine ⟨i / T.bs, i % T.bs, hb, he, h2, ?_⟩
    unfold getitem at h3
    rw [gatherU_of_lt _ _ (by rw [hsh.len_table, Nat.add_mul]; omega)] at h3
    unfold item; rw [← he]; exact h3
  · rintro ⟨b, s, hb, rfl, h1, h2⟩
    have hs : s < T.bs := by have := hi.fill_le b hb; omega
    obtain ⟨e1, e2⟩ := divmod_flat (b := b) hs
    refine ⟨⟨hsh.flat_bound hb hs, by rw [e1, e2]; exact h1⟩, ?_⟩
    unfold getitem
    rw [gatherU_of_lt _ _ (by rw [hsh.len_table]; exact hsh.flat_bound' hb (Nat.le_of_lt hs))]
    exact h2

theorem occupied_stored (hi : Inv H T) {i : Nat} (ho : Occupied T i) : ∃ x, Stored T x i := by
  have hsh := hi.toShape
  have hlt : i < T.table.length := by
    rw [hsh.len_table, Nat.add_mul]; have := ho.1; omega
  exact ⟨T.table[i], ho, by unfold getitem; rw [gatherU_of_lt _ _ hlt, List.getElem?_eq_getElem hlt]⟩

theorem lookup_found_iff (hi : Inv H T) (x : α) :
    ((lookup H T x).2 = true ↔ ∃ i, Stored T x i) ∧ ((lookup H T x).2 = true → Stored T x (lookup H T x).1) := by
  obtain ⟨h1, h2⟩ := lookupBucket_found hi x
  have hstored : (lookup H T x).2 = true → Stored T x (lookup H T x).1 := by
    intro h
    obtain ⟨hb, hh⟩ := h2 h
    rw [stored_iff hi]
    refine ⟨_, _, hb, ?_, hh⟩
    have hs : (lookupBucket H T x).1.2 ≤ T.bs := by
      have := hi.fill_le _ hb; have := hh.1; omega
    exact hi.toShape.flat_eq hb hs
  refine ⟨⟨fun h => ⟨_, hstored h⟩, ?_⟩, hstored⟩
  rintro ⟨i, h⟩
  obtain ⟨b, s, hb, _, hh⟩ := (stored_iff hi x i).1 h
  exact h1.2 ⟨b, s, hb, hh⟩

theorem stored_unique (hi : Inv H T) {x : α} {i j : Nat} (h1 : Stored T x i) (h2 : Stored T x j) : i = j := by
  obtain ⟨b, s, hb, rfl, hh⟩ := (stored_iff hi x i).1 h1
  obtain ⟨b', s', hb', rfl, hh'⟩ := (stored_iff hi x j).1 h2
  obtain ⟨e1, e2⟩ := hi.distinct b s b' s' x hb hh.1 hb' hh'.1 hh.2 hh'.2
  rw [e1, e2]

/-- Every operation is an extension. -/
theorem run_ext (hi : Inv H T) (op : Op α K) : ∃ N, Ext H T (run H T op) N := by
  cases op with
  | insert x =>
    by_cases h : (lookupBucket H T x).2 = true ∨ ∀ b, b < T.cap → fillOf T b = T.bs
    · have e := (insert_noop hi x h).1
      refine ⟨fun _ _ _ => False, ?_⟩
      show Ext H T (insert H T x).1 _
      rw [e]
      exact { cap_eq := rfl, bs_eq := rfl, mp_eq := rfl, len_table := rfl, len_fps := rfl, len_fill := rfl,
              len_occ := rfl, fill_mono := fun b hb => ⟨Nat.le_refl _, hi.fill_le b hb⟩,
              new_ex := fun b s _ h1 h2 => by omega, new_ok := fun _ _ _ h => h.elim,
              new_path := fun _ _ _ h => h.elim, new_abs := fun _ _ _ h => h.elim,
              new_inj := fun _ _ _ _ _ h => h.elim, old := fun _ _ _ _ => ⟨rfl, rfl⟩, size_ok := hi.size_ok,
              occ_ok := hi.occ_ok }
    · simp only [not_or, Bool.not_eq_true] at h
      have hroom : ∃ b, b < T.cap ∧ fillOf T b < T.bs := by
        apply Classical.byContradiction
        intro hc
        apply h.2
        intro b hb
        apply Classical.byContradiction
        intro hne
        exact hc ⟨b, hb, by have := hi.fill_le b hb; omega⟩
      obtain ⟨_, b, s, _, _, _, he⟩ := insert_ext hi x h.1 hroom
      exact ⟨_, he⟩
  | parallelInsert be mode xs filled key => exact ⟨_, parallelInsert_ext be hi (dedupe_sel mode H xs filled key)⟩

theorem Ext.stored {T' : Table α} {N : α → Nat → Nat → Prop} (he : Ext H T T' N) (hi : Inv H T) (x : α) (i : Nat) :
    Stored T' x i ↔ Stored T x i ∨ ∃ b s, b < T.cap ∧ i = b * T.bs + s ∧ N x b s := by
  rw [stored_iff (he.inv hi), stored_iff hi, he.cap_eq, he.bs_eq]
  constructor
  · rintro ⟨b, s, hb, e, hh⟩
    rcases (he.has_iff hb).1 hh with h | h
    · exact Or.inl ⟨b, s, hb, e, h⟩
    · exact Or.inr ⟨b, s, hb, e, h⟩
  · rintro (⟨b, s, hb, e, hh⟩ | ⟨b, s, hb, e, hn⟩)
    · exact ⟨b, s, hb, e, (he.has_iff hb).2 (Or.inl hh)⟩
    · exact ⟨b, s, hb, e, (he.has_iff hb).2 (Or.inr hn)⟩

theorem run_inv (hi : Inv H T) (op : Op α K) : Inv H (run H T op) := by
  obtain ⟨N, he⟩ := run_ext hi op; exact he.inv hi

theorem exec_inv (hi : Inv H T) (ops : List (Op α K)) : Inv H (exec H T ops) := by
  induction ops generalizing T with
  | nil => exact hi
  | cons op ops ih => exact ih (run_inv hi op)

theorem Reachable.inv (h : Reachable K H T) : Inv H T := by
  obtain ⟨d, capacity, bs, mult, mp, ops, hv, rfl⟩ := h
  exact exec_inv (build_inv H d capacity bs mult mp hv.bs_pos hv.bs_le hv.small hv.probes) ops

theorem exec_stored (hi : Inv H T) (ops : List (Op α K)) {x : α} {i : Nat} (h : Stored T x i) :
    Stored (exec H T ops) x i := by
  induction ops generalizing T with
  | nil => exact h
  | cons op ops ih =>
    obtain ⟨N, he⟩ := run_ext hi op
    exact ih (he.inv hi) ((he.stored hi x i).2 (Or.inl h))

theorem exec_append (ops₁ ops₂ : List (Op α K)) : exec H T (ops₁ ++ ops₂) = exec H (exec H T ops₁) ops₂ := by
  unfold exec; rw [List.foldl_append]

theorem Reachable.run (h : Reachable K H T) (op : Op α K) : Reachable K H (run H T op) := by
  obtain ⟨d, capacity, bs, mult, mp, ops, hv, rfl⟩ := h
  refine ⟨d, capacity, bs, mult, mp, ops ++ [op], hv, ?_⟩
  rw [exec_append]; rfl

/-! ## The properties -/

/-- **C17.**  On every reachable table `lookup` reports found iff some occupied slot holds the item, and then the
returned index is that slot.  (The hash functions are arbitrary.) -/
theorem lookup_exact (hr : Reachable K H T) (x : α) :
    ((lookup H T x).2 = true ↔ ∃ i, Stored T x i) ∧
    ((lookup H T x).2 = true → Stored T x (lookup H T x).1 ∧ ∀ i, Stored T x i → i = (lookup H T x).1) := by
  obtain ⟨h1, h2⟩ := lookup_found_iff hr.inv x
  exact ⟨h1, fun h => ⟨h2 h, fun i hs => stored_unique hr.inv hs (h2 h)⟩⟩

/-- **C19.**  An item stored at an index stays there, with the same value, and `lookup` keeps returning that index,
after any further history. -/
theorem indices_stable (hr : Reachable K H T) {x : α} {i : Nat} (h : Stored T x i) (ops : List (Op α K)) :
    Stored (exec H T ops) x i ∧ getitem (exec H T ops) i = some x ∧ lookup H (exec H T ops) x = (i, true) := by
  have hs := exec_stored hr.inv ops h
  have hi := exec_inv hr.inv ops
  refine ⟨hs, hs.2, ?_⟩
  have hf := (lookup_found_iff hi x).1.2 ⟨i, hs⟩
  have he := stored_unique hi ((lookup_found_iff hi x).2 hf) hs
  exact Prod.ext he hf

/-- After a successful single insert the returned index holds the item. -/
theorem insert_stored (hi : Inv H T) (x : α) (h : (insert H T x).2.1 = true) :
    Stored (insert H T x).1 x (insert H T x).2.2 ∧ (¬ ∃ i, Stored T x i) := by
  have hno : ¬ ((lookupBucket H T x).2 = true ∨ ∀ b, b < T.cap → fillOf T b = T.bs) := by
    intro hc
    have := (insert_noop hi x hc).2
    rw [h] at this; cases this
  simp only [not_or, Bool.not_eq_true] at hno
  have hroom : ∃ b, b < T.cap ∧ fillOf T b < T.bs := by
    apply Classical.byContradiction
    intro hc
    apply hno.2
    intro b hb
    apply Classical.byContradiction
    intro hne
    exact hc ⟨b, hb, by have := hi.fill_le b hb; omega⟩
  obtain ⟨_, b, s, hb, hs, hidx, he⟩ := insert_ext hi x hno.1 hroom
  refine ⟨?_, ?_⟩
  · rw [he.stored hi, hidx]
    exact Or.inr ⟨b, s, hb, rfl, rfl, rfl, rfl⟩
  · rintro ⟨i, hs⟩
    have := (lookup_found_iff hi x).1.2 ⟨i, hs⟩
    have hf : (lookupBucket H T x).2 = true := this
    rw [hno.1] at hf; cases hf

/-- **C16 (single insert).**  An item reported inserted is found by `lookup`, at the returned index, immediately and
after any further history; reading the table at that index returns the item. -/
theorem inserted_is_found (hr : Reachable K H T) (x : α) (h : (insert H T x).2.1 = true) (ops : List (Op α K)) :
    lookup H (exec H (insert H T x).1 ops) x = ((insert H T x).2.2, true) ∧
    getitem (exec H (insert H T x).1 ops) (insert H T x).2.2 = some x := by
  have hr' : Reachable K H (insert H T x).1 := hr.run (.insert x)
  obtain ⟨h1, h2, h3⟩ := indices_stable hr' (insert_stored hr.inv x h).1 ops
  exact ⟨h3, h2⟩

/-- **C16 (already present).**  When the table is not full, single insert always leaves the item findable at the
returned index, whether it reports it inserted or not. -/
theorem insert_then_found (hr : Reachable K H T) (x : α) (hroom : ∃ i, i < T.cap * T.bs ∧ ¬ Occupied T i)
    (ops : List (Op α K)) :
    lookup H (exec H (insert H T x).1 ops) x = ((insert H T x).2.2, true) ∧
    getitem (exec H (insert H T x).1 ops) (insert H T x).2.2 = some x := by
  have hi := hr.inv
  by_cases h : (insert H T x).2.1 = true
  · exact inserted_is_found hr x h ops
  · have hr' : Reachable K H (insert H T x).1 := hr.run (.insert x)
    have hs : Stored (insert H T x).1 x (insert H T x).2.2 := by
      by_cases hf : (lookupBucket H T x).2 = true
      · rw [(insert_noop hi x (Or.inl hf)).1]
        exact (lookup_found_iff hi x).2 hf
      · exfalso
        have hf' : (lookupBucket H T x).2 = false := by simpa using hf
        obtain ⟨i, h1, h2⟩ := hroom
        have hb : i / T.bs < T.cap := by apply Nat.div_lt_of_lt_mul; rw [Nat.mul_comm]; exact h1
        have hm := Nat.mod_lt i hi.toShape.bs_pos
        have hlt : fillOf T (i / T.bs) < T.bs := by
          apply Classical.byContradiction
          intro hc
          apply h2
          refine ⟨h1, ?_⟩
          show _ < fillOf T (i / T.bs)
          omega
        exact h (insert_ext hi x hf' ⟨_, hb, hlt⟩).1
    obtain ⟨h1, h2, h3⟩ := indices_stable hr' hs ops
    exact ⟨h3, h2⟩

/-- **C20 and C25.**  Single insert of a stored item changes nothing, reports `False` and returns its index; single
insert of an absent item reports `True` and returns the (previously free) index now holding it, unless every slot is
occupied, in which case it reports `False` and changes nothing. -/
theorem insert_reports (hr : Reachable K H T) (x : α) :
    (∀ i, Stored T x i → insert H T x = (T, false, i)) ∧
    ((¬ ∃ i, Stored T x i) → (∃ i, i < T.cap * T.bs ∧ ¬ Occupied T i) →
      (insert H T x).2.1 = true ∧ ¬ Occupied T (insert H T x).2.2 ∧
      Stored (insert H T x).1 x (insert H T x).2.2 ∧
      (∀ y i, Stored (insert H T x).1 y i ↔ Stored T y i ∨ (y = x ∧ i = (insert H T x).2.2))) ∧
    ((¬ ∃ i, Stored T x i) → (∀ i, i < T.cap * T.bs → Occupied T i) →
      (insert H T x).1 = T ∧ (insert H T x).2.1 = false) := by
  have hi := hr.inv
  have hsh := hi.toShape
  refine ⟨?_, ?_, ?_⟩
  · intro i hs
    have hf : (lookup H T x).2 = true := (lookup_found_iff hi x).1.2 ⟨i, hs⟩
    have hn := insert_noop hi x (Or.inl hf)
    have hidx : (insert H T x).2.2 = (lookup H T x).1 := rfl
    have := stored_unique hi ((lookup_found_iff hi x).2 hf) hs
    refine Prod.ext hn.1 (Prod.ext hn.2 ?_)
    show (insert H T x).2.2 = i
    rw [hidx, this]
  · rintro hno ⟨i, h1, h2⟩
    have hf : (lookupBucket H T x).2 = false := by
      cases hc : (lookupBucket H T x).2 with
      | false => rfl
      | true => exact absurd ((lookup_found_iff hi x).1.1 hc) hno
    have hb : i / T.bs < T.cap := by apply Nat.div_lt_of_lt_mul; rw [Nat.mul_comm]; exact h1
    have hm := Nat.mod_lt i hsh.bs_pos
    have hlt : fillOf T (i / T.bs) < T.bs := by
      apply Classical.byContradiction
      intro hc
      apply h2
      refine ⟨h1, ?_⟩
      show _ < fillOf T (i / T.bs)
      omega
    obtain ⟨ht, b, s, hb', hs', hidx, he⟩ := insert_ext hi x hf ⟨_, hb, hlt⟩
    refine ⟨ht, ?_, (insert_stored hi x ht).1, ?_⟩
    · intro ho
      have hnew := he.new_ok x b s ⟨rfl, rfl, rfl⟩
      obtain ⟨_, h4⟩ := ho
      rw [hidx, (divmod_flat hs').1, (divmod_flat hs').2] at h4
      have : s < fillOf T b := h4
      omega
    · intro y j
      rw [he.stored hi, hidx]
      constructor
      · rintro (h | ⟨b', s', _, e, rfl, rfl, rfl⟩)
        · exact Or.inl h
        · exact Or.inr ⟨rfl, e⟩
      · rintro (h | ⟨rfl, e⟩)
        · exact Or.inl h
        · exact Or.inr ⟨b, s, hb', e, rfl, rfl, rfl⟩
  · intro _ hfull
    apply insert_noop hi x
    right
    intro b hb
    have hle := hi.fill_le b hb
    apply Classical.byContradiction
    intro hne
    have hs : T.bs - 1 < T.bs := by have := hsh.bs_pos; omega
    have := (hfull _ (hsh.flat_bound hb hs)).2
    rw [(divmod_flat hs).1, (divmod_flat hs).2] at this
    have : T.bs - 1 < fillOf T b := this
    omega

/-- **C25.**  Single insert of an absent item fails only when every slot of the table is occupied. -/
theorem insert_fails_only_if_full (hr : Reachable K H T) (x : α) (habs : ¬ ∃ i, Stored T x i)
    (hfail : (insert H T x).2.1 = false) : ∀ i, i < T.cap * T.bs → Occupied T i := by
  intro i h
  apply Classical.byContradiction
  intro hno
  have := ((insert_reports hr x).2.1 habs ⟨i, h, hno⟩).1
  rw [this] at hfail; cases hfail

/-- The number of occupied slots. -/
def occupiedCount (T : Table α) : Nat := ((List.range (T.cap * T.bs)).filter fun i => decide (Occupied T i)).length

theorem occupiedCount_eq (hi : Inv H T) : occupiedCount T = T.size := by
  have hsh := hi.toShape
  rw [hi.size_ok]
  have key : ∀ n, n ≤ T.cap → ((List.range (n * T.bs)).filter fun i => decide (i % T.bs < fillOf T (i / T.bs))).length =
      ((List.range n).map (fillOf T)).sum := by
    intro n
    induction n with
    | zero => intro _; simp
    | succ n ih =>
      intro hn
      have e : (n + 1) * T.bs = n * T.bs + T.bs := by rw [Nat.add_mul]; omega
      rw [e, List.range_add, List.filter_append, List.length_append, ih (by omega), List.range_succ, List.map_append,
        List.sum_append]
      congr 1
      simp only [List.map_cons, List.map_nil, List.sum_cons, List.sum_nil, Nat.add_zero]
      rw [List.filter_map, List.length_map]
      have e2 : (List.range T.bs).filter ((fun i => decide (i % T.bs < fillOf T (i / T.bs))) ∘ fun x => n * T.bs + x) =
          (List.range T.bs).filter fun s => decide (s < fillOf T n) := by
        apply List.filter_congr
        intro s hs
        have hs' := List.mem_range.1 hs
        simp only [Function.comp]
        rw [(divmod_flat hs').1, (divmod_flat hs').2]
      rw [e2]
      have hf := hi.fill_le n (by omega)
      have : ∀ m f, f ≤ m → ((List.range m).filter fun s => decide (s < f)).length = f := by
        intro m f
        induction m with
        | zero => intro h; simp; omega
        | succ m ihm =>
          intro h
          rw [List.range_succ, List.filter_append, List.length_append]
          rcases Nat.lt_or_ge m f with h1 | h1
          · have : f = m + 1 := by omega
            subst this
            have : (List.range m).filter (fun s => decide (s < m + 1)) = List.range m := by
              rw [List.filter_eq_self]; intro a ha; have := List.mem_range.1 ha; simp; omega
            rw [this]; simp
          · rw [ihm h1]; simp; omega
      exact this _ _ hf
  rw [← key T.cap (Nat.le_refl _)]
  unfold occupiedCount
  congr 1
  apply List.filter_congr
  intro i hi'
  have := List.mem_range.1 hi'
  apply decide_eq_decide.2
  unfold Occupied fillOf
  exact ⟨fun h => h.2, fun h => ⟨this, h⟩⟩

theorem run_size (hi : Inv H T) (op : Op α K) : (run H T op).size = T.size + insertedCount H T op := by
  have hext := run_ext hi op
  obtain ⟨N, he⟩ := hext
  have hi' := he.inv hi
  have hle := sum_fill_le hi'
  have hlt := size_lt hi'
  have hle0 := sum_fill_le hi
  have hlt0 := size_lt hi
  cases op with
  | insert x =>
    cases hc : (insert H T x).2.1 with
    | false =>
      have e : (insert H T x).1 = T := by
        unfold insert at hc ⊢
        simp only at hc
        simp only [hc]
        simp
      simp only [run, insertedCount, hc, Bool.toNat_false, e]; rfl
    | true =>
      have e : (insert H T x).1.size = (T.size + 1) % 2 ^ 32 := by
        unfold insert at hc ⊢
        simp only at hc
        simp only [hc]
        simp
      simp only [run, insertedCount, hc, Bool.toNat_true, e]
      omega
  | parallelInsert be mode xs filled key =>
    have hsel := dedupe_sel mode H xs filled key
    have hpl := (pi_spec be hi hsel).1.placed
    have hsz := (pi_spec be hi hsel).1.size
    show (piRes H T be xs filled (dedupe mode H.toEnc xs filled key)).1.size =
      T.size + (piRes H T be xs filled (dedupe mode H.toEnc xs filled key)).2.2.countP id
    rw [hsz]
    generalize piRes H T be xs filled (dedupe mode H.toEnc xs filled key) = R at *
    apply Nat.mod_eq_of_lt
    have hsum := sum_lengths (c := T.cap) (fun i h => (hpl.range i h).1)
    have hbound : ∀ n, n ≤ T.cap → ((List.range n).map fun b => fillOf T b + (slotsIn R.2.2 R.2.1 b).length).sum ≤ n * T.bs := by
      intro n
      induction n with
      | zero => simp
      | succ n ih =>
        intro hn
        simp only [List.range_succ, List.map_append, List.sum_append, List.map_cons, List.map_nil, List.sum_cons,
          List.sum_nil]
        have := ih (by omega)
        have := hpl.fill_le hi (b := n) (by omega)
        rw [Nat.add_mul]
        omega
    have h1 := hbound T.cap (Nat.le_refl _)
    rw [sum_add] at h1
    rw [hsum, ← hi.size_ok] at h1
    omega

/-- **C18.**  On every reachable table no two occupied slots hold equal items, and `size` is the number of occupied
slots. -/
theorem stored_once (hr : Reachable K H T) :
    (∀ i j, Occupied T i → Occupied T j → getitem T i = getitem T j → i = j) ∧ T.size = occupiedCount T := by
  refine ⟨?_, (occupiedCount_eq hr.inv).symm⟩
  intro i j h1 h2 he
  obtain ⟨x, hx⟩ := occupied_stored hr.inv h1
  exact stored_unique hr.inv hx ⟨h2, by rw [← he]; exact hx.2⟩

/-- **C18.**  `size` is the number of `True` values in all `inserted` flags returned so far. -/
theorem size_counts_inserted (d : α) {capacity bs mult : Nat} {mp : Option Nat} (hv : ValidParams capacity bs mult mp)
    (ops : List (Op α K)) :
    (exec H (build d capacity bs mult mp) ops).size = insertedTotal H (build d capacity bs mult mp) ops := by
  have gen : ∀ (T : Table α), Inv H T → (exec H T ops).size = T.size + insertedTotal H T ops := by
    induction ops with
    | nil => intro T _; rfl
    | cons op ops ih =>
      intro T hi
      show (exec H (run H T op) ops).size = _
      rw [ih _ (run_inv hi op), run_size hi op]
      simp only [insertedTotal]; omega
  rw [gen _ (build_inv H d capacity bs mult mp hv.bs_pos hv.bs_le hv.small hv.probes)]
  simp [build]

/-- **C21 (1).**  After `parallel_insert` the stored items are the old ones plus the items of the lanes reported
inserted; only filled lanes with an item that was not stored are reported inserted, and no two of them hold equal
items.  Holds for every mode, mask, key and hash function. -/
theorem parallel_insert_union (hr : Reachable K H T) (be : Backend) (mode : Mode) (xs : List α) (filled : List Bool)
    (key : Option (List K)) :
    let r := parallelInsert be mode H T xs filled key
    (∀ x, (∃ i, Stored r.table x i) ↔ (∃ i, Stored T x i) ∨
      ∃ l : Nat, r.inserted[l]? = some true ∧ xs[l]? = some x) ∧
    (∀ l : Nat, r.inserted[l]? = some true → filled[l]? = some true ∧ r.unique[l]? = some true ∧
      ∀ x, xs[l]? = some x → ¬ ∃ i, Stored T x i) ∧
    (∀ l l' : Nat, r.inserted[l]? = some true → r.inserted[l']? = some true → xs[l]? = xs[l']? → l = l') := by
  intro r
  have hi := hr.inv
  have hsel := dedupe_sel mode H xs filled key
  have hext := parallelInsert_ext be hi hsel
  have hgd : ∀ (l : List Bool) (i : Nat), l[i]? = some true ↔ l.getD i false = true := by
    intro l i
    rw [List.getD_eq_getElem?_getD]
    cases h : l[i]? with
    | none => simp
    | some v => simp
  have hins : r.inserted = piOk H T be xs filled (dedupe mode H.toEnc xs filled key) := rfl
  refine ⟨?_, ?_, ?_⟩
  · intro x
    constructor
    · rintro ⟨i, h⟩
      rcases (hext.stored hi x i).1 h with h | ⟨b, s, _, _, l, h1, h2, _⟩
      · exact Or.inl ⟨i, h⟩
      · exact Or.inr ⟨l, by rw [hgd, hins]; exact h1, h2⟩
    · rintro (⟨i, h⟩ | ⟨l, h1, h2⟩)
      · exact ⟨i, (hext.stored hi x i).2 (Or.inl h)⟩
      · rw [hgd, hins] at h1
        have hn : piNew H T be xs filled (dedupe mode H.toEnc xs filled key) x _ _ := ⟨l, h1, h2, rfl⟩
        exact ⟨_, (hext.stored hi x _).2 (Or.inr ⟨_, _, (hext.new_ok x _ _ hn).1, rfl, hn⟩)⟩
  · intro l h
    rw [hgd, hins] at h
    obtain ⟨x, hx, hd, hf⟩ := piOk_imp hi hsel h
    refine ⟨(hgd _ _).2 (hsel.filled l (List.getElem?_eq_some_iff.1 hx).1 hd), (hgd _ _).2 hd, ?_⟩
    intro y hy
    rw [hx] at hy; cases hy
    rintro ⟨i, hs⟩
    obtain ⟨b, s, hb, _, hh⟩ := (stored_iff hi x i).1 hs
    have := (laneEnd_found hi x).1.2 ⟨b, s, hb, hh⟩
    rw [this] at hf; cases hf
  · intro l l' h1 h2 he
    rw [hgd, hins] at h1 h2
    obtain ⟨x, hx, hd, _⟩ := piOk_imp hi hsel h1
    obtain ⟨x', hx', hd', _⟩ := piOk_imp hi hsel h2
    exact hsel.distinct l l' x hd hd' hx (by rw [← he]; exact hx)

/-- **C16/C21 (2).**  A lane reported inserted gets the index that now holds its item, found by `lookup` after any
further history. -/
theorem parallel_inserted_is_found (hr : Reachable K H T) (be : Backend) (mode : Mode) (xs : List α) (filled : List Bool)
    (key : Option (List K)) (l : Nat) (x : α) (hx : xs[l]? = some x)
    (h : (parallelInsert be mode H T xs filled key).inserted[l]? = some true) (ops : List (Op α K)) :
    lookup H (exec H (parallelInsert be mode H T xs filled key).table ops) x =
      ((parallelInsert be mode H T xs filled key).idx.getD l 0, true) ∧
    getitem (exec H (parallelInsert be mode H T xs filled key).table ops)
      ((parallelInsert be mode H T xs filled key).idx.getD l 0) = some x := by
  have hi := hr.inv
  have hsel := dedupe_sel mode H xs filled key
  have hext := parallelInsert_ext be hi hsel
  have h1 : (piOk H T be xs filled (dedupe mode H.toEnc xs filled key)).getD l false = true := by
    rw [List.getD_eq_getElem?_getD]
    have : (piOk H T be xs filled (dedupe mode H.toEnc xs filled key))[l]? = some true := h
    rw [this]; rfl
  obtain ⟨x', hx', hd, hf⟩ := piOk_imp hi hsel h1
  rw [hx] at hx'; cases hx'
  have hlt := (List.getElem?_eq_some_iff.1 hx).1
  have hn : piNew H T be xs filled (dedupe mode H.toEnc xs filled key) x _ _ := ⟨l, h1, hx, rfl⟩
  have hb := (hext.new_ok x _ _ hn).1
  have hidx := pi_idx hi hsel hlt (hsel.rep l hlt hd) hx hd hb ((hext.has_iff hb).2 (Or.inr hn))
  have hs : Stored (parallelInsert be mode H T xs filled key).table x
      ((parallelInsert be mode H T xs filled key).idx.getD l 0) := by
    refine (hext.stored hi x _).2 (Or.inr ⟨_, _, hb, hidx, hn⟩)
  have hr' : Reachable K H (parallelInsert be mode H T xs filled key).table := hr.run (.parallelInsert be mode xs filled key)
  obtain ⟨a, b, c⟩ := indices_stable hr' hs ops
  exact ⟨c, b⟩

/-- **C21 (3), partial.**  If the batch satisfies `GuardFor` (every lane filled, or finite keys, or no filled lane encodes to the sentinel; no hash collision in mode `approx`;
see `Dedupe.dedupe_sentinel_collision` for what happens otherwise), every filled lane whose item ends up
stored — new, already present, or a duplicate of another lane — gets the index of the slot holding its item. -/
theorem parallel_insert_index_partial (hr : Reachable K H T) (be : Backend) {mode : Mode} (xs : List α)
    (filled : List Bool) (key : Option (List K)) (hg : GuardFor mode H.toEnc xs filled key) (l : Nat) (x : α)
    (hx : xs[l]? = some x) (hfl : filled[l]? = some true)
    (hst : ∃ i, Stored (parallelInsert be mode H T xs filled key).table x i) :
    Stored (parallelInsert be mode H T xs filled key).table x ((parallelInsert be mode H T xs filled key).idx.getD l 0) := by
  have hi := hr.inv
  have hsel := dedupe_sel mode H xs filled key
  have hext := parallelInsert_ext be hi hsel
  have hlt := (List.getElem?_eq_some_iff.1 hx).1
  obtain ⟨hp, hsort⟩ := dedupe_default_sorted H.toEnc xs filled
  have hbest := (dedupe_exact_partial H.toEnc xs filled key hg hp hsort l hlt).1 hfl
  have hbest' : IsBest xs filled key l ((dedupe mode H.toEnc xs filled key).2.getD l 0) := hbest
  obtain ⟨r, hrep⟩ : ∃ r, (dedupe mode H.toEnc xs filled key).2.getD l 0 = r := ⟨_, rfl⟩
  rw [hrep] at hbest'
  obtain ⟨hrl, hrf, hrx, hmin⟩ := hbest'
  have hrr : IsBest xs filled key r r := ⟨hrl, hrf, rfl, fun k hk hfk hxk => hmin k hk hfk (by rw [hxk, hrx])⟩
  have hd : (dedupe mode H.toEnc xs filled key).1[r]? = some true :=
    (dedupe_exact_partial H.toEnc xs filled key hg hp hsort r hrl).2.2 ⟨hrf, hrr⟩
  have hd' : (dedupe mode H.toEnc xs filled key).1.getD r false = true := by
    rw [List.getD_eq_getElem?_getD, hd]; rfl
  obtain ⟨i, hs⟩ := hst
  have hi' := hext.inv hi
  obtain ⟨b, s, hb, he, hh⟩ := (stored_iff hi' x i).1 hs
  have hb' : b < T.cap := by rw [← hext.cap_eq]; exact hb
  have hidx := pi_idx hi hsel hlt hrep (by rw [hrx]; exact hx) hd' hb' hh
  have e : (parallelInsert be mode H T xs filled key).idx.getD l 0 = i := by
    show (parallelInsertWith be H T xs filled _).idx.getD l 0 = i
    rw [hidx, he, hext.bs_eq]
  rw [e]; exact hs

/-! ## C26 -/

/-- The loop of a lane and the loop of the single lookup run in lockstep. -/
theorem lane_lockstep (H : Hasher α) (T : Table α) (x : α) (fuel b p : Nat) (hp : p < T.maxProbes) :
    (laneIter H T fuel ⟨x, b, 0, false, p, true⟩).found = (lookupLoop H T x fuel b 0 false p).2 ∧
    ((lookupLoop H T x fuel b 0 false p).2 = true →
      (lookupLoop H T x fuel b 0 false p).1 = ((laneIter H T fuel ⟨x, b, 0, false, p, true⟩).bucket,
        (laneIter H T fuel ⟨x, b, 0, false, p, true⟩).slot)) := by
  induction fuel generalizing b p with
  | zero => exact ⟨rfl, fun h => by cases h⟩
  | succ fuel ih =>
    rw [laneIter]
    simp only [laneStep, lookupLoop, Bool.true_and, Bool.not_false, hp, decide_true, if_true, Bool.false_or]
    cases hr : (scanBucket H T x b).1 with
    | true =>
      simp only [Bool.not_true, Bool.false_and, Bool.false_eq_true, if_false, if_true, Bool.true_or]
      rw [laneIter_inactive rfl, lookupLoop_done _ _ _ _ _ _ _ _ (Or.inl rfl)]
      exact ⟨rfl, fun _ => rfl⟩
    | false =>
      cases hf : (limit T b == T.bs) with
      | true =>
        simp only [Bool.not_false, Bool.not_true, Bool.and_self, Bool.true_and, Bool.or_self, Bool.false_eq_true, if_false]
        by_cases hp2 : p + T.bs < T.maxProbes
        · simp only [hp2, decide_true, if_true]
          exact ih _ _ hp2
        · simp only [hp2, decide_false, Bool.false_eq_true, if_false]
          rw [laneIter_inactive rfl, lookupLoop_done _ _ _ _ _ _ _ _ (Or.inr (by omega))]
          exact ⟨rfl, fun h => by cases h⟩
      | false =>
        simp only [Bool.not_false, Bool.and_false, Bool.false_and, Bool.or_true, Bool.false_eq_true, if_false, if_true]
        rw [laneIter_inactive rfl, lookupLoop_done _ _ _ _ _ _ _ _ (Or.inr (Nat.le_refl _))]
        exact ⟨rfl, fun h => by cases h⟩

/-- **C26.**  On every table (reachable or not, any `max_probes`), `lookup_parallel` returns for every filled lane the
found flag of `lookup` on its item and, when found, the same index; unfilled lanes are not found. -/
theorem lookup_parallel_agrees (H : Hasher α) (T : Table α) (xs : List α) (filled : List Bool) (l : Nat) (x : α)
    (hx : xs[l]? = some x) :
    ∃ i f, (lookupParallel H T xs filled)[l]? = some (i, f) ∧
      (filled[l]? = some true → f = (lookup H T x).2 ∧ (f = true → i = (lookup H T x).1)) ∧
      (filled[l]? ≠ some true → f = false) := by
  refine ⟨_, _, by rw [lookupParallel_getElem?, hx]; rfl, ?_, ?_⟩
  · intro hf
    have hg : filled.getD l false = true := by rw [List.getD_eq_getElem?_getD, hf]; rfl
    rw [hg]
    by_cases hp : 0 < T.maxProbes
    · obtain ⟨h1, h2⟩ := lane_lockstep H T x (T.maxProbes + 1) (start H T x) 0 hp
      refine ⟨h1, fun h => ?_⟩
      have h3 := h2 (by rw [← h1]; exact h)
      show flat T (laneIter H T _ _).bucket (laneIter H T _ _).slot = flat T (lookupLoop H T x _ _ _ _ _).1.1
        (lookupLoop H T x _ _ _ _ _).1.2
      rw [h3]
    · have e : (laneEnd H T x false true).found = false := by
        unfold laneEnd
        rw [laneIter]
        have : laneStep H T ⟨x, start H T x, 0, false, 0, true⟩ = ⟨x, start H T x, 0, false, 0, false⟩ := by
          simp only [laneStep]
          rw [if_neg]; simp; omega
        rw [this, laneIter_inactive rfl]
      have e2 : (lookup H T x).2 = false := by
        show (lookupLoop H T x _ _ _ _ _).2 = false
        rw [lookupLoop_done _ _ _ _ _ _ _ _ (Or.inr (by omega))]
      rw [e, e2]
      exact ⟨rfl, fun h => by cases h⟩
  · intro hf
    have hg : filled.getD l false = false := by
      cases hc : filled.getD l false with
      | false => rfl
      | true => exact absurd (filled_iff.1 hc) hf
    rw [hg]
    exact (laneEnd_idle x (Or.inr rfl)).1

/-! ## C27 and concrete instances -/

/-- A hash function on `Nat` with collisions: everything starts at bucket `x % 2` of the hash `h1`, step 1. -/
def exHasher : Hasher Nat where
  wc := 1
  words := fun x => [x]
  h1 := fun x => x % 4
  h2 := fun _ => 0
  words_length := by simp
  words_inj := by simp
  mix := fun a _ => a

/-- **C27 is false.**  With two one-slot buckets and `max_probes = 1`, inserting two items of the same start bucket:
the second is reported inserted (index 1), but `lookup` does not find it. -/
theorem custom_max_probes_false :
    let T0 := build 0 1 1 2 (some 1)
    let T1 := (insert exHasher T0 4).1
    let r := insert exHasher T1 8
    T0.cap = 2 ∧ r.2 = (true, 1) ∧ (lookup exHasher r.1 8).2 = false := by
  decide +kernel

/-- Non-vacuity of the history theorems: a reachable table with a bucket overflow, a duplicate in the batch, an item
already present and an unfilled lane. -/
example :
    let ops : List (Op Nat (Option Nat)) := [.insert 0, .insert 4,
        .parallelInsert .xla .safe [8, 1, 8, 4, 3, 12] [true, true, true, true, false, true] none]
    let T := exec exHasher (build 0 8 2 2 none) ops
    ValidParams 8 2 2 none ∧ T.cap = 8 ∧ T.size = 5 ∧ lookup exHasher T 8 = (2, true) ∧ lookup exHasher T 12 = (4, true) ∧
    getitem T 4 = some 12 ∧ (lookup exHasher T 3).2 = false := by
  refine ⟨⟨by omega, by omega, by decide +kernel, fun m h => by cases h⟩, ?_⟩
  decide +kernel

end HashTable
