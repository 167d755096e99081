import Verif.TritonProps
import Verif.PallasProps

/-! # `parallel_insert` (XLA path) extends the table -/

namespace HashTable

open Jax SortGroup Dedupe

variable {α : Type u} [DecidableEq α] {H : Hasher α} {T : Table α}

/-- Final positions of the placement loop. -/
def finalPos (H : Hasher α) (T : Table α) (xs : List α) (pos0 : List Pos) (upd : List Bool) : List Pos :=
  placeLoop T (xs.map (step H T)) upd T.maxProbes pos0

/-- Success flags. -/
def finalOk (T : Table α) (upd : List Bool) (pos : List Pos) : List Bool :=
  tab upd.length fun i => upd.getD i false && !(pendings T upd pos).getD i false &&
    decide ((pos.getD i default).slot < T.bs)

theorem finalOk_iff {xs : List α} {upd : List Bool} {pos : List Pos} (hi : Inv H T) (hp : PlaceInv H T xs upd pos)
    (hl : xs.length = upd.length) (i : Nat) : (finalOk T upd pos).getD i false = true ↔
      i < upd.length ∧ (winners T upd pos).getD i false = true := by
  unfold finalOk
  rw [getD_tab_false]
  constructor
  · rintro ⟨h1, h2⟩
    simp only [Bool.and_eq_true, Bool.not_eq_true', decide_eq_true_eq] at h2
    refine ⟨h1, ?_⟩
    cases hw : (winners T upd pos).getD i false with
    | true => rfl
    | false =>
      have := (pendings_iff h1).2 ⟨h2.1.1, Or.inl hw⟩
      rw [this] at h2; exact absurd h2.1.2 (by simp)
  · rintro ⟨h1, h2⟩
    have hw := (winners_iff hi hp hl h1).1 h2
    refine ⟨h1, ?_⟩
    simp [winner_not_pending hi hp hl h1 h2, ← List.getD_eq_getElem?_getD, hw.1, hw.2.1]

theorem PlaceInv.placed {xs : List α} {upd : List Bool} {pos : List Pos} (hi : Inv H T) (hp : PlaceInv H T xs upd pos)
    (hl : xs.length = upd.length) : Placed H T xs (finalOk T upd pos) pos := by
  have hocc : ∀ b s, Occ T upd pos b s → ∃ i, (finalOk T upd pos).getD i false = true ∧ pos.getD i default = ⟨b, s⟩ := by
    intro b s ho
    obtain ⟨k, hk, hw, he⟩ := occ_winner hi hp hl ho
    exact ⟨k, (finalOk_iff hi hp hl k).2 ⟨hk, hw⟩, he⟩
  have hlane : ∀ i, (finalOk T upd pos).getD i false = true → ∀ x, xs[i]? = some x →
      (∃ j, LaneAt H T upd pos x (pos.getD i default) j) ∧ (pos.getD i default).slot < T.bs ∧
        (pos.getD i default).bucket < T.cap := by
    intro i h x hx
    obtain ⟨h1, h2⟩ := (finalOk_iff hi hp hl i).1 h
    have hw := (winners_iff hi hp hl h1).1 h2
    exact ⟨hp.2 i x h1 hw.1 hx, hw.2.1, (hp.pos_ok hi hl h1 hw.1).1⟩
  have hxs : ∀ i, (finalOk T upd pos).getD i false = true → ∃ x, xs[i]? = some x := by
    intro i h
    have := ((finalOk_iff hi hp hl i).1 h).1
    exact ⟨_, List.getElem?_eq_getElem (by omega)⟩
  constructor
  · simp [finalOk, hl]
  · intro i h
    obtain ⟨x, hx⟩ := hxs i h
    obtain ⟨⟨j, hj⟩, hs, hb⟩ := hlane i h x hx
    exact ⟨hb, hj.lo, hs⟩
  · intro i k h1 h2 he
    obtain ⟨i1, i2⟩ := (finalOk_iff hi hp hl i).1 h1
    obtain ⟨k1, k2⟩ := (finalOk_iff hi hp hl k).1 h2
    have hwi := (winners_iff hi hp hl i1).1 i2
    have hwk := (winners_iff hi hp hl k1).1 k2
    have := hwi.2.2 k k1 hwk.1 he.symm
    have := hwk.2.2 i i1 hwi.1 he
    omega
  · rintro b s ⟨i, h, he⟩ s' h1 h2
    obtain ⟨x, hx⟩ := hxs i h
    obtain ⟨⟨j, hj⟩, hs, hb⟩ := hlane i h x hx
    have := hj.passed s'
    rw [he] at this
    exact hocc b s' (this h1 h2)
  · intro i x h hx
    obtain ⟨⟨j, hj⟩, hs, hb⟩ := hlane i h x hx
    exact ⟨j, hj.bucket.symm, fun l hl' s h1 h2 => hocc _ s (hj.held l hl' s h1 h2)⟩

theorem place_eq (xs : List α) (pos0 : List Pos) (upd : List Bool) :
    (place H T xs pos0 upd).2 = (finalPos H T xs pos0 upd, finalOk T upd (finalPos H T xs pos0 upd)) := rfl

theorem place_fst (xs : List α) (pos0 : List Pos) (upd : List Bool) {pos : List Pos} {ok : List Bool}
    (hpos : pos = finalPos H T xs pos0 upd) (hok : ok = finalOk T upd pos) :
    (place H T xs pos0 upd).1 = { T with
      table := scatterSet T.table (safeIdx T ok pos) xs
      fps := scatterSet T.fps (safeIdx T ok pos) (xs.map H.fp)
      fill := scatterAdd T.fill (pos.map (·.bucket)) (ok.map Bool.toNat)
      size := (T.size + ok.countP id) % 2 ^ 32
      occ := if T.bs ≤ 32 then scatterAdd T.occ (pos.map (·.bucket))
          (tab ok.length fun i => if ok.getD i false then 2 ^ (pos.getD i default).slot % 2 ^ 32 else 0)
        else T.occ } := by
  have hoklen : ok.length = upd.length := by rw [hok]; simp [finalOk]
  unfold safeIdx
  rw [hoklen, hok, hpos]
  rfl

/-- The table after a placement extends the old one by the successful lanes. -/
theorem place_ext {xs : List α} {pos0 : List Pos} {upd : List Bool} (hi : Inv H T) (hp0 : PlaceInv H T xs upd pos0)
    (hl : xs.length = upd.length)
    (habs : ∀ i x, upd.getD i false = true → xs[i]? = some x → ∀ b s, b < T.cap → ¬ Has T x b s)
    (hdist : ∀ i k x, upd.getD i false = true → upd.getD k false = true → xs[i]? = some x → xs[k]? = some x → i = k) :
    let pos := finalPos H T xs pos0 upd
    let ok := finalOk T upd pos
    Ext H T (place H T xs pos0 upd).1
      (fun x b s => ∃ i, ok.getD i false = true ∧ xs[i]? = some x ∧ pos.getD i default = ⟨b, s⟩) := by
  intro pos ok
  have hp : PlaceInv H T xs upd pos := placeLoop_inv hi hp0 hl _
  have hpl : Placed H T xs ok pos := hp.placed hi hl
  have hsh := hi.toShape
  have hoklen : ok.length = upd.length := by simp [ok, finalOk]
  have hok : ∀ i, ok.getD i false = true → upd.getD i false = true := by
    intro i h
    obtain ⟨h1, h2⟩ := (finalOk_iff hi hp hl i).1 h
    exact ((winners_iff hi hp hl h1).1 h2).1
  have hfst := place_fst (H := H) (T := T) xs pos0 upd (pos := pos) (ok := ok) rfl rfl
  clear_value ok
  clear_value pos
  rw [hfst]
  refine Placed.ext hi hpl (fun i x h => habs i x (hok i h)) (fun i k x h1 h2 => hdist i k x (hok i h1) (hok k h2))
    rfl rfl rfl rfl rfl ?_ ?_ ?_ rfl ?_
  · exact scatterAdd_length _ _ _
  · show (if T.bs ≤ 32 then _ else _ : List Nat).length = _
    split
    · exact scatterAdd_length _ _ _
    · rfl
  · intro b hb
    show (scatterAdd T.fill (pos.map (·.bucket)) (ok.map Bool.toNat)).getD b 0 = _
    rw [scatterAdd_getD _ _ _ _ (by rw [hsh.len_fill]; omega)]
    have e : ok.map Bool.toNat = tab ok.length fun i => (ok.getD i false).toNat := by
      conv => lhs; rw [← tab_self ok]
      rw [List.map_map]; rfl
    rw [e, sum_lanes pos ok _ b (by rw [hp.1, hoklen]) (by intro i h; rw [h]; rfl)]
    have : (lanesIn ok pos b).map (fun i => (ok.getD i false).toNat) = (lanesIn ok pos b).map fun _ => 1 := by
      apply List.map_congr_left
      intro i h; rw [(mem_lanesIn.1 h).1]; rfl
    rw [this, sum_ones]
    simp [slotsIn, fillOf]
  · intro hbs b hb
    show (if T.bs ≤ 32 then _ else _ : List Nat).getD b 0 = _
    rw [if_pos hbs, scatterAdd_getD _ _ _ _ (by rw [hsh.len_occ]; omega)]
    rw [sum_lanes pos ok _ b (by rw [hp.1, hoklen]) (by intro i h; rw [h]; rfl)]
    rw [hi.occ_ok hbs b hb, ← hpl.occ_sum b]
    congr 1
    unfold slotsIn
    rw [List.map_map]
    congr 1
    apply List.map_congr_left
    intro i h
    have h1 := (mem_lanesIn.1 h).1
    rw [if_pos h1]
    have := (hpl.range i h1).2.2
    rw [Nat.mod_eq_of_lt (Nat.pow_lt_pow_right (by omega) (by omega))]
    rfl

/-- The start positions satisfy the invariant of the XLA rounds. -/
theorem StartOk.placeInv {xs : List α} {pos0 : List Pos} {upd : List Bool} (hi : Inv H T) (hs : StartOk H T xs upd pos0) :
    PlaceInv H T xs upd pos0 := by
  refine ⟨hs.1, ?_⟩
  intro i x hin hu hx
  obtain ⟨j, hj1, hj2⟩ := hs.2.2 i x hu hx
  rw [hj2]
  refine ⟨j, rfl, Nat.le_refl _, hi.fill_le _ (hi.toShape.path_lt' H x j), ?_, ?_⟩
  · intro l hl s h1 h2
    have := hj1 l hl; omega
  · intro s h1 h2
    simp only at h1 h2; omega

theorem place_spec {xs : List α} {pos0 : List Pos} {upd : List Bool} (hi : Inv H T) (hs : StartOk H T xs upd pos0)
    (habs : ∀ i x, upd.getD i false = true → xs[i]? = some x → ∀ b s, b < T.cap → ¬ Has T x b s)
    (hdist : ∀ i k x, upd.getD i false = true → upd.getD k false = true → xs[i]? = some x → xs[k]? = some x → i = k) :
    PlaceSpec H T xs upd (place H T xs pos0 upd) := by
  have hl := hs.2.1
  have hp : PlaceInv H T xs upd (finalPos H T xs pos0 upd) := placeLoop_inv hi (hs.placeInv hi) hl _
  refine ⟨hp.placed hi hl, ?_, rfl, place_ext hi (hs.placeInv hi) hl habs hdist, ?_⟩
  rotate_left
  · rw [place_fst (H := H) (T := T) xs pos0 upd rfl rfl]
    rfl
  intro i h
  obtain ⟨h1, h2⟩ := (finalOk_iff hi hp hl i).1 h
  exact ((winners_iff hi hp hl h1).1 h2).1

/-- Every back-end reserves correctly. -/
theorem placeBy_spec (be : Backend) {xs : List α} {pos0 : List Pos} {upd : List Bool} (hi : Inv H T)
    (hs : StartOk H T xs upd pos0)
    (habs : ∀ i x, upd.getD i false = true → xs[i]? = some x → ∀ b s, b < T.cap → ¬ Has T x b s)
    (hdist : ∀ i k x, upd.getD i false = true → upd.getD k false = true → xs[i]? = some x → xs[k]? = some x → i = k) :
    PlaceSpec H T xs upd (placeBy be H T xs pos0 upd) := by
  cases be with
  | xla => exact place_spec hi hs habs hdist
  | triton mpb sched =>
    unfold placeBy
    simp only
    split
    · rename_i hbs; exact (triton_spec hi hbs hs mpb sched habs hdist).1
    · exact place_spec hi hs habs hdist
  | pallas mpb =>
    unfold placeBy
    simp only
    split
    · rename_i hbs; exact (pallas_spec hi hbs hs mpb habs hdist).1
    · exact place_spec hi hs habs hdist

/-- The back-ends for which a lane gives up only on a full table: the two kernels with their default probe limit. -/
def Backend.Complete (be : Backend) (T : Table α) : Prop :=
  T.bs ≤ 32 ∧ match be with
    | .xla => False
    | .triton mpb _ => T.cap ≤ mpb
    | .pallas mpb => T.cap ≤ mpb

theorem placeBy_full {be : Backend} (hbe : be.Complete T) {xs : List α} {pos0 : List Pos} {upd : List Bool} (hi : Inv H T)
    (hs : StartOk H T xs upd pos0)
    (habs : ∀ i x, upd.getD i false = true → xs[i]? = some x → ∀ b s, b < T.cap → ¬ Has T x b s)
    (hdist : ∀ i k x, upd.getD i false = true → upd.getD k false = true → xs[i]? = some x → xs[k]? = some x → i = k) :
    GivesUpFull T upd (placeBy be H T xs pos0 upd) := by
  obtain ⟨hbs, hm⟩ := hbe
  cases be with
  | xla => exact hm.elim
  | triton mpb sched =>
    unfold placeBy
    simp only [hbs, if_true]
    exact (triton_spec hi hbs hs mpb sched habs hdist).2 hm
  | pallas mpb =>
    unfold placeBy
    simp only [hbs, if_true]
    exact (pallas_spec hi hbs hs mpb habs hdist).2 hm

/-! ## `parallel_insert` -/

/-- What de-duplication guarantees unconditionally (`dedupe_selected_distinct`). -/
structure Sel (xs : List α) (filled : List Bool) (dd : List Bool × List Nat) : Prop where
  filled : ∀ i, i < xs.length → dd.1.getD i false = true → filled.getD i false = true
  distinct : ∀ i k x, dd.1.getD i false = true → dd.1.getD k false = true → xs[i]? = some x → xs[k]? = some x → i = k
  rep : ∀ i, i < xs.length → dd.1.getD i false = true → dd.2.getD i 0 = i

section
variable (H T)

/-- Lanes after the lookup phase. -/
def piLanes (xs : List α) (filled : List Bool) (dd : List Bool × List Nat) : List (Lane α) :=
  lookupLanes H T xs (tab xs.length fun i => !dd.1.getD i false) filled

/-- `found` after the lookup phase. -/
def piFound (xs : List α) (filled : List Bool) (dd : List Bool × List Nat) : List Bool :=
  (piLanes H T xs filled dd).map (·.found)

/-- `updatable`. -/
def piUpd (xs : List α) (filled : List Bool) (dd : List Bool × List Nat) : List Bool :=
  tab xs.length fun i => !(piFound H T xs filled dd).getD i false && dd.1.getD i false

/-- Positions after the lookup phase. -/
def piPos (xs : List α) (filled : List Bool) (dd : List Bool × List Nat) : List Pos :=
  (piLanes H T xs filled dd).map fun l => ⟨l.bucket, l.slot⟩

/-- Outcome of the reservation. -/
def piRes (be : Backend) (xs : List α) (filled : List Bool) (dd : List Bool × List Nat) : Table α × List Pos × List Bool :=
  placeBy be H T xs (piPos H T xs filled dd) (piUpd H T xs filled dd)

/-- Final positions. -/
def piFin (be : Backend) (xs : List α) (filled : List Bool) (dd : List Bool × List Nat) : List Pos :=
  (piRes H T be xs filled dd).2.1

/-- `inserted`. -/
def piOk (be : Backend) (xs : List α) (filled : List Bool) (dd : List Bool × List Nat) : List Bool :=
  (piRes H T be xs filled dd).2.2

end

theorem parallelInsertWith_eq (be : Backend) (xs : List α) (filled : List Bool) (dd : List Bool × List Nat) :
    parallelInsertWith be H T xs filled dd =
      { table := (piRes H T be xs filled dd).1
        inserted := piOk H T be xs filled dd
        unique := dd.1
        idx := tab xs.length fun i =>
          let p := (tab xs.length fun i => if (piFound H T xs filled dd).getD i false || !(piOk H T be xs filled dd).getD i false
            then (piPos H T xs filled dd).getD i default else (piFin H T be xs filled dd).getD i default).getD
              (dd.2.getD i 0) default
          flat T p.bucket p.slot } := rfl

theorem piLane_getElem? (xs : List α) (filled : List Bool) (dd : List Bool × List Nat) {i : Nat} {x : α}
    (hx : xs[i]? = some x) :
    (piLanes H T xs filled dd)[i]? = some (laneEnd H T x (!dd.1.getD i false) (filled.getD i false)) := by
  have hi : i < xs.length := (List.getElem?_eq_some_iff.1 hx).1
  unfold piLanes
  rw [lookupLanes_getElem?, hx, tab_getD _ _ hi]; rfl

theorem piFound_getD (xs : List α) (filled : List Bool) (dd : List Bool × List Nat) {i : Nat} {x : α}
    (hx : xs[i]? = some x) :
    (piFound H T xs filled dd).getD i false = (laneEnd H T x (!dd.1.getD i false) (filled.getD i false)).found := by
  unfold piFound
  rw [List.getD_eq_getElem?_getD, List.getElem?_map, piLane_getElem? xs filled dd hx]; rfl

theorem piPos_getD (xs : List α) (filled : List Bool) (dd : List Bool × List Nat) {i : Nat} {x : α}
    (hx : xs[i]? = some x) :
    (piPos H T xs filled dd).getD i default =
      ⟨(laneEnd H T x (!dd.1.getD i false) (filled.getD i false)).bucket,
       (laneEnd H T x (!dd.1.getD i false) (filled.getD i false)).slot⟩ := by
  unfold piPos
  rw [List.getD_eq_getElem?_getD, List.getElem?_map, piLane_getElem? xs filled dd hx]; rfl

theorem piUpd_iff {xs : List α} {filled : List Bool} {dd : List Bool × List Nat} (hsel : Sel xs filled dd)
    {i : Nat} {x : α} (hx : xs[i]? = some x) :
    (piUpd H T xs filled dd).getD i false = true ↔ dd.1.getD i false = true ∧ (laneEnd H T x false true).found = false := by
  have hi : i < xs.length := (List.getElem?_eq_some_iff.1 hx).1
  unfold piUpd
  rw [getD_tab_false, piFound_getD xs filled dd hx]
  constructor
  · rintro ⟨_, h⟩
    simp only [Bool.and_eq_true, Bool.not_eq_true'] at h
    have hd := h.2
    rw [hd, hsel.filled i hi hd] at h
    exact ⟨hd, h.1⟩
  · rintro ⟨h1, h2⟩
    refine ⟨hi, ?_⟩
    rw [h1, hsel.filled i hi h1]
    simp [h2]

theorem pi_start {xs : List α} {filled : List Bool} {dd : List Bool × List Nat} (hi : Inv H T)
    (hsel : Sel xs filled dd) : StartOk H T xs (piUpd H T xs filled dd) (piPos H T xs filled dd) := by
  refine ⟨by simp [piPos, piUpd, piLanes, lookupLanes_length], by simp [piUpd], ?_⟩
  intro i x hu hx
  have hil : i < xs.length := (List.getElem?_eq_some_iff.1 hx).1
  obtain ⟨hd, hf⟩ := (piUpd_iff hsel hx).1 hu
  rw [piPos_getD xs filled dd hx, hd, hsel.filled i hil hd]
  obtain ⟨j, hj1, hj2, hj3⟩ := laneEnd_absent hi x hf
  simp only [Bool.not_true]
  exact ⟨j, hj1, by rw [hj2, hj3]⟩

theorem pi_placeInv {xs : List α} {filled : List Bool} {dd : List Bool × List Nat} (hi : Inv H T)
    (hsel : Sel xs filled dd) : PlaceInv H T xs (piUpd H T xs filled dd) (piPos H T xs filled dd) :=
  (pi_start hi hsel).placeInv hi

theorem pi_spec (be : Backend) {xs : List α} {filled : List Bool} {dd : List Bool × List Nat} (hi : Inv H T)
    (hsel : Sel xs filled dd) : PlaceSpec H T xs (piUpd H T xs filled dd) (piRes H T be xs filled dd) ∧
      (be.Complete T → GivesUpFull T (piUpd H T xs filled dd) (piRes H T be xs filled dd)) := by
  suffices h : (∀ i x, (piUpd H T xs filled dd).getD i false = true → xs[i]? = some x → ∀ b s, b < T.cap → ¬ Has T x b s) ∧
      (∀ i k x, (piUpd H T xs filled dd).getD i false = true → (piUpd H T xs filled dd).getD k false = true →
        xs[i]? = some x → xs[k]? = some x → i = k) from
    ⟨placeBy_spec be hi (pi_start hi hsel) h.1 h.2, fun hbe => placeBy_full hbe hi (pi_start hi hsel) h.1 h.2⟩
  refine ⟨?_, ?_⟩
  · intro i x hu hx b s hb hh
    obtain ⟨_, hf⟩ := (piUpd_iff hsel hx).1 hu
    have := (laneEnd_found hi x).1.2 ⟨b, s, hb, hh⟩
    rw [this] at hf; cases hf
  · intro i k x hu1 hu2 h1 h2
    exact hsel.distinct i k x ((piUpd_iff hsel h1).1 hu1).1 ((piUpd_iff hsel h2).1 hu2).1 h1 h2

/-- New items of a batch: `x` of lane `i`, placed at `(b, s)`. -/
def piNew (H : Hasher α) (T : Table α) (be : Backend) (xs : List α) (filled : List Bool) (dd : List Bool × List Nat) (x : α) (b s : Nat) :
    Prop :=
  ∃ i, (piOk H T be xs filled dd).getD i false = true ∧ xs[i]? = some x ∧
    (piFin H T be xs filled dd).getD i default = ⟨b, s⟩

theorem parallelInsert_ext (be : Backend) {xs : List α} {filled : List Bool} {dd : List Bool × List Nat} (hi : Inv H T)
    (hsel : Sel xs filled dd) :
    Ext H T (parallelInsertWith be H T xs filled dd).table (piNew H T be xs filled dd) :=
  (pi_spec be hi hsel).1.ext

theorem piOk_imp {be : Backend} {xs : List α} {filled : List Bool} {dd : List Bool × List Nat} (hi : Inv H T)
    (hsel : Sel xs filled dd) {i : Nat} (h : (piOk H T be xs filled dd).getD i false = true) :
    ∃ x, xs[i]? = some x ∧ dd.1.getD i false = true ∧ (laneEnd H T x false true).found = false := by
  have hu := (pi_spec be hi hsel).1.sub i h
  have hl : xs.length = (piUpd H T xs filled dd).length := by simp [piUpd]
  obtain ⟨x, hx⟩ : ∃ x, xs[i]? = some x := ⟨_, List.getElem?_eq_getElem (by rw [hl]; exact getD_true_lt hu)⟩
  exact ⟨x, hx, (piUpd_iff hsel hx).1 hu⟩

/-- The index returned for lane `i` whose representative is the selected lane `r` (same item): if the item ends up
stored, the index is its slot. -/
theorem pi_idx {be : Backend} {xs : List α} {filled : List Bool} {dd : List Bool × List Nat} (hi : Inv H T)
    (hsel : Sel xs filled dd) {i r : Nat} {x : α} (hin : i < xs.length) (hr : dd.2.getD i 0 = r) (hx : xs[r]? = some x)
    (hd : dd.1.getD r false = true) {b s : Nat} (hb : b < T.cap)
    (hh : Has (parallelInsertWith be H T xs filled dd).table x b s) :
    (parallelInsertWith be H T xs filled dd).idx.getD i 0 = b * T.bs + s := by
  have hext := parallelInsert_ext be hi hsel
  have hrl : r < xs.length := (List.getElem?_eq_some_iff.1 hx).1
  have hsb : s < T.bs := by
    have := hh.1; have := (hext.fill_mono b hb).2; omega
  have hsh := hi.toShape
  have hfr := hsel.filled r hrl hd
  have hl : xs.length = (piUpd H T xs filled dd).length := by simp [piUpd]
  rw [parallelInsertWith_eq be]
  simp only
  rw [tab_getD _ _ hin, hr, tab_getD _ _ hrl]
  have hpf := piFound_getD (H := H) (T := T) xs filled dd hx
  rw [hd, hfr] at hpf
  have hpp := piPos_getD (H := H) (T := T) xs filled dd hx
  rw [hd, hfr] at hpp
  simp only [Bool.not_true] at hpf hpp
  rcases (hext.has_iff hb).1 hh with hold | hnew
  · -- already stored
    have hf : (laneEnd H T x false true).found = true := (laneEnd_found hi x).1.2 ⟨b, s, hb, hold⟩
    obtain ⟨hb', hh'⟩ := (laneEnd_found hi x).2 hf
    obtain ⟨e1, e2⟩ := hi.distinct _ _ _ _ x hb' hh'.1 hb hold.1 hh'.2 hold.2
    rw [hpf, hf, Bool.true_or, if_pos rfl, hpp]
    simp only
    rw [e1, e2, hsh.flat_eq hb (by omega)]
  · obtain ⟨i', h1, h2, h3⟩ := hnew
    obtain ⟨x', hx', hd', hf'⟩ := piOk_imp hi hsel h1
    have he := hsel.distinct i' r x hd' hd h2 hx
    subst he
    rw [hx] at hx'; cases hx'
    rw [hpf, hf', h1]
    simp only [Bool.not_true, Bool.or_self, Bool.false_eq_true, if_false]
    rw [h3]
    exact hsh.flat_eq hb (Nat.le_of_lt hsb)

end HashTable
