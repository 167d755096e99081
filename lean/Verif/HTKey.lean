import Verif.HTProps
import Verif.DedupeInt

/-!
# The hash table with `unique_key`s that may be NaN (C84)

`ReachableN` adds batches with NaN keys to the histories of `Reachable`.
-/

namespace HashTable

open Jax SortGroup Dedupe DedupeSpec

variable {α : Type u} [DecidableEq α] {K : Type v} [KeyTop K] {H : Hasher α} {T : Table α}

/-- Histories in which every operation may be a batch with NaN keys. -/
inductive ReachableN (K : Type v) [KeyTop K] (H : Hasher α) : Table α → Prop
  | base {T : Table α} : Reachable K H T → ReachableN K H T
  | op {T : Table α} (o : Op α K) : ReachableN K H T → ReachableN K H (run H T o)
  | nan {T : Table α} (be : Backend) (mode : Mode) (xs : List α) (filled : List Bool) (ks : List (Option K)) :
      ReachableN K H T → ReachableN K H (parallelInsertN be mode H T xs filled ks).table

theorem dedupeN_sel (mode : Mode) (H : Hasher α) (xs : List α) (filled : List Bool) (ks : List (Option K)) :
    Sel xs filled (dedupeN mode H.toEnc xs filled ks) := by
  obtain ⟨h1, h2⟩ := dedupeN_distinct mode H.toEnc xs filled ks
  exact ⟨fun i hi h => (h1 i hi h).1, h2, fun i hi h => (h1 i hi h).2⟩

theorem ReachableN.inv (h : ReachableN K H T) : Inv H T := by
  induction h with
  | base h => exact h.inv
  | op o _ ih => exact run_inv ih o
  | nan be mode xs filled ks _ ih => exact (parallelInsert_ext be ih (dedupeN_sel mode H xs filled ks)).inv ih

theorem getD_true_iff (l : List Bool) (i : Nat) : l[i]? = some true ↔ l.getD i false = true := by
  rw [List.getD_eq_getElem?_getD]
  cases l[i]? <;> simp

/-- **C84 (3).**  Whatever the keys, in every mode and after every history: `lookup` finds exactly what is stored; a batch keeps every stored item where it is and adds exactly
the items of the lanes reported inserted, which are filled, were not stored and are different from each other. -/
theorem nan_keys_table (hr : ReachableN K H T) (be : Backend) (mode : Mode) (xs : List α) (filled : List Bool) (ks : List (Option K)) :
    let r := parallelInsertN be mode H T xs filled ks
    (∀ x, ((lookup H r.table x).2 = true ↔ ∃ i, Stored r.table x i) ∧ ((lookup H r.table x).2 = true → Stored r.table x (lookup H r.table x).1)) ∧
    (∀ x i, Stored T x i → Stored r.table x i) ∧
    (∀ x, (∃ i, Stored r.table x i) ↔ (∃ i, Stored T x i) ∨ ∃ l : Nat, r.inserted[l]? = some true ∧ xs[l]? = some x) ∧
    (∀ l : Nat, r.inserted[l]? = some true → filled[l]? = some true ∧ r.unique[l]? = some true ∧ ∀ x, xs[l]? = some x → ¬ ∃ i, Stored T x i) ∧
    (∀ l l' : Nat, r.inserted[l]? = some true → r.inserted[l']? = some true → xs[l]? = xs[l']? → l = l') := by
  intro r
  have hi := hr.inv
  have hsel := dedupeN_sel mode H xs filled ks
  have hext := parallelInsert_ext be hi hsel
  have hi' : Inv H r.table := hext.inv hi
  have hins : r.inserted = piOk H T be xs filled (dedupeN mode H.toEnc xs filled ks) := rfl
  refine ⟨fun x => lookup_found_iff hi' x, fun x i h => (hext.stored hi x i).2 (Or.inl h), ?_, ?_, ?_⟩
  · intro x
    constructor
    · rintro ⟨i, h⟩
      rcases (hext.stored hi x i).1 h with h | ⟨b, s, _, _, l, h1, h2, _⟩
      · exact Or.inl ⟨i, h⟩
      · exact Or.inr ⟨l, by rw [getD_true_iff, hins]; exact h1, h2⟩
    · rintro (⟨i, h⟩ | ⟨l, h1, h2⟩)
      · exact ⟨i, (hext.stored hi x i).2 (Or.inl h)⟩
      · rw [getD_true_iff, hins] at h1
        have hn : piNew H T be xs filled (dedupeN mode H.toEnc xs filled ks) x _ _ := ⟨l, h1, h2, rfl⟩
        exact ⟨_, (hext.stored hi x _).2 (Or.inr ⟨_, _, (hext.new_ok x _ _ hn).1, rfl, hn⟩)⟩
  · intro l h
    rw [getD_true_iff, hins] at h
    obtain ⟨x, hx, hd, hf⟩ := piOk_imp hi hsel h
    refine ⟨(getD_true_iff _ _).2 (hsel.filled l (List.getElem?_eq_some_iff.1 hx).1 hd), (getD_true_iff _ _).2 hd, ?_⟩
    intro y hy
    rw [hx] at hy; cases hy
    rintro ⟨i, hs⟩
    obtain ⟨b, s, hb, _, hh⟩ := (stored_iff hi x i).1 hs
    have := (laneEnd_found hi x).1.2 ⟨b, s, hb, hh⟩
    rw [this] at hf; cases hf
  · intro l l' h1 h2 he
    rw [getD_true_iff, hins] at h1 h2
    obtain ⟨x, hx, hd, _⟩ := piOk_imp hi hsel h1
    obtain ⟨x', hx', hd', _⟩ := piOk_imp hi hsel h2
    exact hsel.distinct l l' x hd hd' hx (by rw [← he]; exact hx)

/-- **C84 (4).**  A backend that tries every bucket.  An item none of whose filled lanes has the key NaN is stored afterwards, unless the table is
full, and its lanes return its slot. -/
theorem nan_keys_others_stored_partial (hr : ReachableN K H T) {be : Backend} (hbe : be.Complete T) {mode : Mode} (xs : List α) (filled : List Bool)
    (hg : Guard mode H.toEnc xs filled) (ks : List (Option K)) (l : Nat) (x : α) (hx : xs[l]? = some x) (hf : filled[l]? = some true)
    (hn : ∀ k : Nat, xs[k]? = some x → filled[k]? = some true → ks[k]? ≠ some none) :
    let r := parallelInsertN be mode H T xs filled ks
    Stored r.table x (r.idx.getD l 0) ∨ ((¬ ∃ i, Stored r.table x i) ∧ ∀ i, i < T.cap * T.bs → Occupied r.table i) := by
  intro r
  have hi := hr.inv
  have hsel := dedupeN_sel mode H xs filled ks
  have hext := parallelInsert_ext be hi hsel
  have hi' : Inv H r.table := hext.inv hi
  have hlt := (List.getElem?_eq_some_iff.1 hx).1
  have hnan : ¬ HasNaN xs filled ks l := by
    rintro ⟨j, hj, h1, h2, h3⟩
    exact hn j (by rw [h2]; exact hx) h1 h3
  obtain ⟨hbest, _⟩ := (dedupe_nan_keys H.toEnc xs filled hg ks l hlt hf).1 hnan
  obtain ⟨q, hrep⟩ : ∃ q, (dedupeN mode H.toEnc xs filled ks).2.getD l 0 = q := ⟨_, rfl⟩
  rw [hrep] at hbest
  obtain ⟨hrl, hrf, hrx, hmin⟩ := hbest
  have hqx : xs[q]? = some x := by rw [hrx]; exact hx
  have hqnan : ¬ HasNaN xs filled ks q := by
    rintro ⟨j, hj, h1, h2, h3⟩
    exact hnan ⟨j, hj, h1, by rw [h2, hrx], h3⟩
  have hd : (dedupeN mode H.toEnc xs filled ks).1.getD q false = true :=
    (getD_true_iff _ _).1 (((dedupe_nan_keys H.toEnc xs filled hg ks q hrl hrf).1 hqnan).2.2
      ⟨hrl, hrf, rfl, fun k hk hfk hxk => hmin k hk hfk (by rw [hxk, hrx])⟩)
  by_cases hst : ∃ i, Stored r.table x i
  · left
    obtain ⟨i, hs⟩ := hst
    obtain ⟨b, s, hb, he, hh⟩ := (stored_iff hi' x i).1 hs
    have hb' : b < T.cap := by rw [← hext.cap_eq]; exact hb
    have hidx := pi_idx (be := be) hi hsel hlt hrep hqx hd hb' hh
    have e : r.idx.getD l 0 = i := by
      show (parallelInsertWith be H T xs filled _).idx.getD l 0 = i
      rw [hidx, he]
      show _ = b * (parallelInsertWith be H T xs filled _).table.bs + s
      rw [hext.bs_eq]
    rw [e]; exact hs
  · right
    refine ⟨hst, ?_⟩
    have hnf : (laneEnd H T x false true).found = false := by
      cases hc : (laneEnd H T x false true).found with
      | false => rfl
      | true =>
        obtain ⟨b, s, hb, hh⟩ := (laneEnd_found hi x).1.1 hc
        exact absurd ⟨_, (hext.stored hi x _).2 (Or.inl ((stored_iff hi x _).2 ⟨b, s, hb, rfl, hh⟩))⟩ hst
    have hu := (piUpd_iff hsel hqx).2 ⟨hd, hnf⟩
    have hok : (piOk H T be xs filled (dedupeN mode H.toEnc xs filled ks)).getD q false = false := by
      cases hc : (piOk H T be xs filled (dedupeN mode H.toEnc xs filled ks)).getD q false with
      | false => rfl
      | true =>
        have hnw : piNew H T be xs filled (dedupeN mode H.toEnc xs filled ks) x _ _ := ⟨q, hc, hqx, rfl⟩
        exact absurd ⟨_, (hext.stored hi x _).2 (Or.inr ⟨_, _, (hext.new_ok x _ _ hnw).1, rfl, hnw⟩)⟩ hst
    have hfull := (pi_spec be hi hsel).2 hbe q hu hok
    intro i hil
    have hbs : 0 < T.bs := by
      apply Nat.pos_of_ne_zero
      intro h
      rw [h] at hil
      omega
    have hb : i / T.bs < T.cap := by
      apply Nat.div_lt_of_lt_mul; rw [Nat.mul_comm]; exact hil
    have hfb := hfull (i / T.bs) hb
    refine ⟨?_, ?_⟩
    · show i < (parallelInsertWith be H T xs filled _).table.cap * (parallelInsertWith be H T xs filled _).table.bs
      rw [hext.cap_eq, hext.bs_eq]; exact hil
    · show i % (parallelInsertWith be H T xs filled _).table.bs < (parallelInsertWith be H T xs filled _).table.fill.getD (i / (parallelInsertWith be H T xs filled _).table.bs) 0
      rw [hext.bs_eq]
      have : fillOf (parallelInsertWith be H T xs filled (dedupeN mode H.toEnc xs filled ks)).table (i / T.bs) = T.bs := hfb
      unfold fillOf at this
      rw [this]
      exact Nat.mod_lt _ hbs

/-- **C84 (5).**  An item that has a filled lane with the key NaN and is not the item of lane 0: no lane of it is inserted (so it is not stored
unless it was before), whatever the room and the keys of its other lanes; if lane 0 is a unique lane, all the lanes of the item return the index of lane 0,
which is the slot of a different item. -/
theorem nan_key_item_lost (hr : ReachableN K H T) (be : Backend) {mode : Mode} (xs : List α) (filled : List Bool)
    (hg : Guard mode H.toEnc xs filled) (ks : List (Option K)) (k : Nat) (x : α) (hx : xs[k]? = some x) (hf : filled[k]? = some true) (hk : ks[k]? = some none)
    (h0 : xs[0]? ≠ some x) :
    let r := parallelInsertN be mode H T xs filled ks
    ((∃ i, Stored r.table x i) ↔ ∃ i, Stored T x i) ∧
    ∀ l : Nat, xs[l]? = some x → r.inserted[l]? ≠ some true ∧ r.unique[l]? ≠ some true ∧ (filled[l]? = some true → r.unique[0]? = some true → r.idx.getD l 0 = r.idx.getD 0 0) := by
  intro r
  obtain ⟨_, _, h3, h4, _⟩ := nan_keys_table hr be mode xs filled ks
  have hlen : 0 < xs.length := by have := (List.getElem?_eq_some_iff.1 hx).1; omega
  have hnan : ∀ l : Nat, xs[l]? = some x → HasNaN xs filled ks l := fun l hl => ⟨k, (List.getElem?_eq_some_iff.1 hx).1, hf, by rw [hl, hx], hk⟩
  have huniq : ∀ l : Nat, xs[l]? = some x → r.unique[l]? ≠ some true := by
    intro l hl hu
    have hlt := (List.getElem?_eq_some_iff.1 hl).1
    have hu' : (dedupeN mode H.toEnc xs filled ks).1[l]? = some true := hu
    have hfl : filled[l]? = some true :=
      (getD_true_iff _ _).2 ((dedupeN_distinct mode H.toEnc xs filled ks).1 l hlt ((getD_true_iff _ _).1 hu')).1
    have e := ((dedupe_nan_keys H.toEnc xs filled hg ks l hlt hfl).2 (hnan l hl)).2.1 hu'
    rw [e] at hl
    exact h0 hl
  have hins : ∀ l : Nat, xs[l]? = some x → r.inserted[l]? ≠ some true := fun l hl h => huniq l hl (h4 l h).2.1
  refine ⟨⟨fun h => ?_, fun h => (h3 x).2 (Or.inl h)⟩, fun l hl => ⟨hins l hl, huniq l hl, fun hfl hu0 => ?_⟩⟩
  · rcases (h3 x).1 h with h | ⟨l, h1, h2⟩
    · exact h
    · exact absurd h1 (hins l h2)
  · have hlt := (List.getElem?_eq_some_iff.1 hl).1
    have e := ((dedupe_nan_keys H.toEnc xs filled hg ks l hlt hfl).2 (hnan l hl)).1
    have e0 : (dedupeN mode H.toEnc xs filled ks).2.getD 0 0 = 0 :=
      (dedupeN_sel mode H xs filled ks).rep 0 hlen ((getD_true_iff _ _).1 hu0)
    show (parallelInsertWith be H T xs filled (dedupeN mode H.toEnc xs filled ks)).idx.getD l 0 =
      (parallelInsertWith be H T xs filled (dedupeN mode H.toEnc xs filled ks)).idx.getD 0 0
    rw [parallelInsertWith_eq]
    simp only
    rw [tab_getD _ _ hlt, tab_getD _ _ hlen, e, e0]

/-- A batch with a NaN key: items 5, 7, 7, 9 with keys 3, NaN, 1, 2.  Item 7 is lost although one of its keys is a number; its lanes return the slot of item 5. -/
theorem nan_keys_lose_item :
    let T := build 0 8 2 2 none
    let r := parallelInsertN (K := Option Nat) .xla .safe exHasher T [5, 7, 7, 9] [true, true, true, true] [some (some 3), none, some (some 1), some (some 2)]
    ValidParams 8 2 2 none ∧ Guard .safe exHasher.toEnc [5, 7, 7, 9] [true, true, true, true] ∧ r.inserted = [true, false, false, true] ∧
    (lookup exHasher r.table 7).2 = false ∧ (lookup exHasher r.table 5).2 = true ∧ r.table.size = 2 ∧ r.idx.getD 1 0 = r.idx.getD 0 0 ∧
    getitem r.table (r.idx.getD 1 0) = some 5 := by
  refine ⟨⟨by decide, by decide, by decide, fun m h => by cases h⟩, Or.inl (by unfold AllFilled; decide), ?_⟩
  decide +kernel

/-- **C84, why (4) is partial.**  The full claim (every item with a filled lane is stored afterwards, unless the table is full) is false with NaN keys. -/
theorem nan_keys_all_stored_false :
    ¬ ∀ (T : Table Nat) (xs : List Nat) (filled : List Bool) (ks : List (Option (Option Nat))) (l x : Nat), ReachableN (Option Nat) exHasher T →
      Guard .safe exHasher.toEnc xs filled → xs[l]? = some x → filled[l]? = some true → T.size + xs.length ≤ T.cap * T.bs →
      ∃ i, Stored (parallelInsertN .xla .safe exHasher T xs filled ks).table x i := by
  intro h
  have hr : ReachableN (Option Nat) exHasher (build 0 8 2 2 none) :=
    .base ⟨0, 8, 2, 2, none, [], ⟨by decide, by decide, by decide, fun m h => by cases h⟩, rfl⟩
  obtain ⟨i, hi⟩ := h (build 0 8 2 2 none) [5, 7, 7, 9] [true, true, true, true] [some (some 3), none, some (some 1), some (some 2)] 1 7 hr (Or.inl (by unfold AllFilled; decide)) rfl rfl (by decide)
  have hl := ((nan_keys_table hr .xla .safe [5, 7, 7, 9] [true, true, true, true] [some (some 3), none, some (some 1), some (some 2)]).1 7).1.2 ⟨i, hi⟩
  rw [nan_keys_lose_item.2.2.2.1] at hl
  cases hl

/-- Hypotheses of (4) and (5) met in one batch: item 9 has no NaN key, item 7 has one. -/
example : ReachableN (Option Nat) exHasher (build 0 8 2 2 none) ∧ (Backend.pallas 16).Complete (build 0 8 2 2 none : Table Nat) ∧
    Guard .safe exHasher.toEnc [5, 7, 7, 9] [true, true, true, true] :=
  ⟨.base ⟨0, 8, 2, 2, none, [], ⟨by decide, by decide, by decide, fun m h => by cases h⟩, rfl⟩, ⟨by decide, by decide⟩, Or.inl (by unfold AllFilled; decide)⟩

end HashTable
