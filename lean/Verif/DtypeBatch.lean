import Verif.DtypeMix
import Verif.HashPair

/-!
# C108 for batches: a table used with items in other dtypes than declared is the table of the class that declares those dtypes

`parallel_insert` hashes and de-duplicates the batch by its own bytes (insert.py:397-437), compares it with the stored items in the promoted dtype and converts it when it is
written (`.at[…].set`, insert.py:42-51).  A batch has one dtype for each field.
-/

namespace DtypeMix

open HashModel (Leaf Stream W leafWords uint32ed hashPair Kind classHasher)
open WhereTypes (Dt wrap)
open HashTable (Hasher Table Pos Backend PResult Reserved Lane)
open Dedupe (Mode dedupe)
open SortGroup (tab scatterSet)

/-! ## Model: writes convert -/

section Conv

variable {α : Type u} [BEq α] (st : α → α)

/-- `_hashtable_parallel_insert_internal` (insert.py:134-255), `HashTable.place` with the conversion of line 48. -/
def placeC (H : Hasher α) (T : Table α) (xs : List α) (pos0 : List Pos) (upd : List Bool) : Table α × List Pos × List Bool :=
  let n := upd.length
  let pos := HashTable.placeLoop T (xs.map (HashTable.step H T)) upd T.maxProbes pos0
  let pend := HashTable.pendings T upd pos
  let ok := tab n fun i => upd.getD i false && !pend.getD i false && decide ((pos.getD i default).slot < T.bs)
  let idx := tab n fun i => if ok.getD i false then HashTable.flat T (pos.getD i default).bucket (pos.getD i default).slot
    else T.fps.length
  let T' := { T with
    table := scatterSet T.table idx (xs.map st)
    fps := scatterSet T.fps idx (xs.map H.fp)
    fill := HashTable.scatterAdd T.fill (pos.map (·.bucket)) (ok.map Bool.toNat)
    size := (T.size + ok.countP id) % 2 ^ 32
    occ := if T.bs ≤ 32 then HashTable.scatterAdd T.occ (pos.map (·.bucket))
        (tab n fun i => if ok.getD i false then 2 ^ (pos.getD i default).slot % 2 ^ 32 else 0)
      else T.occ }
  (T', pos, ok)

/-- The table update after a kernel (insert.py:280-296, 313-320 and 346-370), with the conversion. -/
def applyReservedC (H : Hasher α) (T : Table α) (xs : List α) (r : Reserved) : Table α × List Pos × List Bool :=
  let idx := tab r.ok.length fun i =>
    if r.ok.getD i false then HashTable.flat T (r.pos.getD i default).bucket (r.pos.getD i default).slot else T.fps.length
  ({ T with
      table := scatterSet T.table idx (xs.map st)
      fps := scatterSet T.fps idx (xs.map H.fp)
      fill := r.fill
      occ := r.occ
      size := (T.size + r.ok.countP id) % 2 ^ 32 },
   r.pos.map (fun p => { p with slot := p.slot % 256 }), r.ok)

/-- Reservation by back-end (insert.py:456-498). -/
def placeByC (be : Backend) (H : Hasher α) (T : Table α) (xs : List α) (pos0 : List Pos) (upd : List Bool) :
    Table α × List Pos × List Bool :=
  match be with
  | .xla => placeC st H T xs pos0 upd
  | .triton mpb sched =>
    if T.bs ≤ 32 then
      applyReservedC st H T xs (HashTable.tritonReserve T (xs.map (HashTable.step H T)) (pos0.map (·.bucket)) upd mpb sched)
    else placeC st H T xs pos0 upd
  | .pallas mpb =>
    if T.bs ≤ 32 then applyReservedC st H T xs (HashTable.pallasReserve T (xs.map (HashTable.step H T)) (pos0.map (·.bucket)) upd mpb)
    else placeC st H T xs pos0 upd

/-- `_process_insert` (insert.py:396-535) after the de-duplication `dd`. -/
def parallelInsertWithC (be : Backend) (H : Hasher α) (T : Table α) (xs : List α) (filled : List Bool) (dd : List Bool × List Nat) : PResult α :=
  let n := xs.length
  let lanes := HashTable.lookupLanes H T xs (tab n fun i => !dd.1.getD i false) filled
  let found := lanes.map (·.found)
  let upd := tab n fun i => !found.getD i false && dd.1.getD i false
  let pos0 := lanes.map fun l => ({ bucket := l.bucket, slot := l.slot } : Pos)
  let r := placeByC st be H T xs pos0 upd
  let prov := tab n fun i =>
    if found.getD i false || !r.2.2.getD i false then pos0.getD i default else r.2.1.getD i default
  { table := r.1, inserted := r.2.2, unique := dd.1,
    idx := tab n fun i => let p := prov.getD (dd.2.getD i 0) default; HashTable.flat T p.bucket p.slot }

end Conv

variable {lens : List Nat}

def kindOf : Dt → Kind
  | .bool => .bool
  | .u8 | .i8 => .b8
  | .u16 | .i16 => .b16
  | _ => .b32

/-- The layout of a class declaring the dtypes `ds`. -/
def Decl.layout (E : Decl lens) : List (Kind × Nat) := List.zipWith (fun d n => (kindOf d, n)) E.ds lens

theorem enc_layout (d : Dt) (vs : List Int) : (enc d vs).layout = (kindOf d, vs.length) := by
  cases d <;> simp [enc, kindOf, Leaf.layout]

theorem bits_layout : ∀ (ds : List Dt) (vs : List (List Int)), (List.zipWith enc ds vs).map Leaf.layout =
    List.zipWith (fun d n => (kindOf d, n)) ds (vs.map List.length)
  | [], _ => by simp
  | _ :: _, [] => by simp
  | d :: ds, v :: vs => by
    have := bits_layout ds vs
    simp [enc_layout, this]

/-- The bytes of the values of `x` in the dtypes `E`. -/
def Decl.bits (E : Decl lens) (x : Inst lens) : HashModel.Inst E.layout :=
  ⟨List.zipWith enc E.ds x.vals.1, by rw [bits_layout, x.vals.2]; rfl⟩

/-- `parallel_insert(inputs, filled, unique_key)` with a batch in the dtypes `E` into a table of a class declaring `D` (insert.py:382-552): the batch is
de-duplicated by its own bytes, which are `E.bits` (`bits_eq_leaves`). -/
def parallelInsertC {K : Type v} [KeyTop K] (D E : Decl lens) (m : Stream) (seed : W) (be : Backend) (mode : Mode) (T : Table (Inst lens)) (xs : List (Inst lens))
    (filled : List Bool) (key : Option (List K)) : PResult (Inst lens) :=
  parallelInsertWithC D.store be (typedHasher m seed lens) T xs filled (dedupe mode (classHasher m E.layout seed).toEnc (xs.map E.bits) filled key)

theorem bits_eq_leaves {E : Decl lens} {x : Inst lens} (h : Typed E x) : (E.bits x).1 = x.leaves := by
  unfold Decl.bits Inst.vals Inst.leaves
  simp only
  rw [← show x.fields.map (·.1) = E.ds from h, List.zipWith_map_left, List.zipWith_map_right, List.zipWith_self]

/-! ## The view -/

section View

variable {α : Type u} {β : Type v} [BEq α] [BEq β] {f : α → β} {HA : Hasher α} {HB : Hasher β}

/-- A lane seen through `f`. -/
def viewLane (f : α → β) (l : Lane α) : Lane β := { l with x := f l.x }

/-- The hypotheses on one item. -/
def Good (f : α → β) (HA : Hasher α) (HB : Hasher β) (T : Table α) (x : α) : Prop :=
  Same f HA HB x ∧ ∀ y ∈ T.table, (y == x) = (f y == f x)

omit [BEq α] [BEq β] in
theorem step_view {T : Table α} {x : α} (h : Same f HA HB x) : HashTable.step HB (view f T) (f x) = HashTable.step HA T x := by
  unfold HashTable.step
  rw [h.h2]
  rfl

omit [BEq α] [BEq β] in
theorem start_view {T : Table α} {x : α} (h : Same f HA HB x) : HashTable.start HB (view f T) (f x) = HashTable.start HA T x := by
  unfold HashTable.start
  rw [h.h1]
  rfl

theorem laneStep_view {T : Table α} {l : Lane α} (h : Good f HA HB T l.x) :
    HashTable.laneStep HB (view f T) (viewLane f l) = viewLane f (HashTable.laneStep HA T l) := by
  have hs := scan_view h.1 h.2 l.bucket
  have hst := step_view (T := T) h.1
  unfold HashTable.laneStep
  dsimp only [viewLane]
  rw [hs, hst]
  show (if (l.active && !l.found && decide (l.probes < T.maxProbes)) = true then _ else _) =
    viewLane f (if (l.active && !l.found && decide (l.probes < T.maxProbes)) = true then _ else _)
  by_cases hc : (l.active && !l.found && decide (l.probes < T.maxProbes)) = true
  · rw [if_pos hc, if_pos hc]
    rfl
  · rw [if_neg hc, if_neg hc]
    rfl

theorem laneStep_x (H : Hasher α) (T : Table α) (l : Lane α) : (HashTable.laneStep H T l).x = l.x := by
  unfold HashTable.laneStep
  dsimp only
  by_cases hc : (l.active && !l.found && decide (l.probes < T.maxProbes)) = true
  · rw [if_pos hc]
  · rw [if_neg hc]

theorem laneLoop_view {T : Table α} : ∀ (fuel : Nat) (ls : List (Lane α)), (∀ l ∈ ls, Good f HA HB T l.x) →
    HashTable.laneLoop HB (view f T) fuel (ls.map (viewLane f)) = (HashTable.laneLoop HA T fuel ls).map (viewLane f)
  | 0, _, _ => rfl
  | fuel + 1, ls, h => by
    unfold HashTable.laneLoop
    have ha : (ls.map (viewLane f)).any (·.active) = ls.any (·.active) := by rw [List.any_map]; rfl
    rw [ha]
    by_cases hc : ls.any (·.active) = true
    · rw [if_pos hc, if_pos hc]
      have hm : (ls.map (viewLane f)).map (HashTable.laneStep HB (view f T)) = (ls.map (HashTable.laneStep HA T)).map (viewLane f) := by
        rw [List.map_map, List.map_map]
        exact List.map_congr_left fun l hl => laneStep_view (h l hl)
      rw [hm]
      refine laneLoop_view fuel _ fun l hl => ?_
      obtain ⟨l', hl', rfl⟩ := List.mem_map.1 hl
      rw [laneStep_x]
      exact h l' hl'
    · rw [if_neg hc, if_neg hc]

theorem lookupLanes_view {T : Table α} {xs : List α} (h : ∀ x ∈ xs, Good f HA HB T x) (found active : List Bool) :
    HashTable.lookupLanes HB (view f T) (xs.map f) found active = (HashTable.lookupLanes HA T xs found active).map (viewLane f) := by
  unfold HashTable.lookupLanes
  rw [← laneLoop_view (HA := HA) (HB := HB)]
  · show HashTable.laneLoop HB (view f T) (T.maxProbes + 1) _ = _
    congr 1
    rw [List.zipIdx_map, List.map_map, List.map_map]
    refine List.map_congr_left fun p hp => ?_
    have hx : p.1 ∈ xs := List.fst_mem_of_mem_zipIdx (x := p) hp
    show Lane.mk (f p.1) (HashTable.start HB (view f T) (f p.1)) 0 (found.getD p.2 false) 0 (active.getD p.2 false) =
      Lane.mk (f p.1) (HashTable.start HA T p.1) 0 (found.getD p.2 false) 0 (active.getD p.2 false)
    rw [start_view (h _ hx).1]
  · intro l hl
    obtain ⟨p, hp, rfl⟩ := List.mem_map.1 hl
    exact h _ (List.fst_mem_of_mem_zipIdx (x := p) hp)

theorem steps_view {T : Table α} {xs : List α} (h : ∀ x ∈ xs, Good f HA HB T x) :
    (xs.map f).map (HashTable.step HB (view f T)) = xs.map (HashTable.step HA T) := by
  rw [List.map_map]
  exact List.map_congr_left fun x hx => step_view (h x hx).1

theorem fps_view {T : Table α} {xs : List α} (h : ∀ x ∈ xs, Good f HA HB T x) : (xs.map f).map HB.fp = xs.map HA.fp := by
  rw [List.map_map]
  exact List.map_congr_left fun x hx => (h x hx).1.fp

omit [BEq α] [BEq β] in
theorem scatter_map (l : List α) (idx : List Nat) (vs : List α) :
    (scatterSet l idx vs).map f = scatterSet (l.map f) idx (vs.map f) := by
  unfold SortGroup.scatterSet
  induction idx generalizing l vs with
  | nil => rfl
  | cons a idx ih =>
    cases vs with
    | nil => rfl
    | cons v vs =>
      simp only [List.map_cons, List.zip_cons_cons, List.foldl_cons]
      rw [← List.map_set, ih]

omit [BEq α] [BEq β] in
theorem write_view {T : Table α} {xs : List α} {st : α → α} (hst : ∀ x ∈ xs, f (st x) = f x) (idx : List Nat) :
    (scatterSet T.table idx (xs.map st)).map f = scatterSet (T.table.map f) idx (xs.map f) := by
  rw [scatter_map, List.map_map]
  congr 1
  exact List.map_congr_left fun x hx => hst x hx

omit [BEq α] [BEq β] in
theorem placeLoop_view (T : Table α) (steps : List Nat) (upd : List Bool) : ∀ (n : Nat) (pos : List Pos),
    HashTable.placeLoop (view f T) steps upd n pos = HashTable.placeLoop T steps upd n pos
  | 0, _ => rfl
  | n + 1, pos => by
    unfold HashTable.placeLoop
    have := placeLoop_view T steps upd n
    simp only [this]
    rfl

theorem place_view {T : Table α} {xs : List α} {st : α → α} (h : ∀ x ∈ xs, Good f HA HB T x) (hst : ∀ x ∈ xs, f (st x) = f x) (pos0 : List Pos) (upd : List Bool) :
    view f (placeC st HA T xs pos0 upd).1 = (HashTable.place HB (view f T) (xs.map f) pos0 upd).1 ∧
      (placeC st HA T xs pos0 upd).2 = (HashTable.place HB (view f T) (xs.map f) pos0 upd).2 := by
  unfold HashTable.place placeC
  dsimp only
  rw [steps_view h, placeLoop_view, fps_view h]
  refine ⟨?_, rfl⟩
  unfold view
  dsimp only
  rw [write_view hst]
  rfl

theorem applyReserved_view {T : Table α} {xs : List α} {st : α → α} (h : ∀ x ∈ xs, Good f HA HB T x) (hst : ∀ x ∈ xs, f (st x) = f x) (r : Reserved) :
    view f (applyReservedC st HA T xs r).1 = (HashTable.applyReserved HB (view f T) (xs.map f) r).1 ∧
      (applyReservedC st HA T xs r).2 = (HashTable.applyReserved HB (view f T) (xs.map f) r).2 := by
  unfold HashTable.applyReserved applyReservedC
  dsimp only
  rw [fps_view h]
  refine ⟨?_, rfl⟩
  unfold view
  dsimp only
  rw [write_view hst]
  rfl

omit [BEq α] [BEq β] in
theorem tritonReserve_view (T : Table α) (steps starts : List Nat) (active : List Bool) (mpb : Nat) (sched : List (Nat × Nat)) :
    HashTable.tritonReserve (view f T) steps starts active mpb sched = HashTable.tritonReserve T steps starts active mpb sched := rfl

omit [BEq α] [BEq β] in
theorem pLoop_view (T : Table α) (steps : List Nat) (n : Nat) : ∀ (k : Nat) (s : HashTable.PState),
    HashTable.pLoop (view f T) steps n k s = HashTable.pLoop T steps n k s
  | 0, _ => rfl
  | k + 1, s => by
    unfold HashTable.pLoop
    simp only [pLoop_view T steps n k]
    rfl

omit [BEq α] [BEq β] in
theorem pallasReserve_view (T : Table α) (steps starts : List Nat) (active : List Bool) (mpb : Nat) :
    HashTable.pallasReserve (view f T) steps starts active mpb = HashTable.pallasReserve T steps starts active mpb := by
  unfold HashTable.pallasReserve
  dsimp only
  rw [pLoop_view]
  rfl

theorem placeBy_view {T : Table α} {xs : List α} {st : α → α} (h : ∀ x ∈ xs, Good f HA HB T x) (hst : ∀ x ∈ xs, f (st x) = f x) (be : Backend) (pos0 : List Pos)
    (upd : List Bool) :
    view f (placeByC st be HA T xs pos0 upd).1 = (HashTable.placeBy be HB (view f T) (xs.map f) pos0 upd).1 ∧
      (placeByC st be HA T xs pos0 upd).2 = (HashTable.placeBy be HB (view f T) (xs.map f) pos0 upd).2 := by
  cases be with
  | xla => exact place_view h hst pos0 upd
  | triton mpb sched =>
    unfold HashTable.placeBy placeByC
    dsimp only
    rw [steps_view h, tritonReserve_view]
    show view f (if T.bs ≤ 32 then _ else _ : Table α × List Pos × List Bool).1 = (if T.bs ≤ 32 then _ else _ : Table β × List Pos × List Bool).1 ∧
      (if T.bs ≤ 32 then _ else _ : Table α × List Pos × List Bool).2 = (if T.bs ≤ 32 then _ else _ : Table β × List Pos × List Bool).2
    by_cases hb : T.bs ≤ 32
    · simp only [if_pos hb]
      exact applyReserved_view h hst _
    · simp only [if_neg hb]
      exact place_view h hst pos0 upd
  | pallas mpb =>
    unfold HashTable.placeBy placeByC
    dsimp only
    rw [steps_view h, pallasReserve_view]
    show view f (if T.bs ≤ 32 then _ else _ : Table α × List Pos × List Bool).1 = (if T.bs ≤ 32 then _ else _ : Table β × List Pos × List Bool).1 ∧
      (if T.bs ≤ 32 then _ else _ : Table α × List Pos × List Bool).2 = (if T.bs ≤ 32 then _ else _ : Table β × List Pos × List Bool).2
    by_cases hb : T.bs ≤ 32
    · simp only [if_pos hb]
      exact applyReserved_view h hst _
    · simp only [if_neg hb]
      exact place_view h hst pos0 upd

theorem parallel_view {T : Table α} {xs : List α} {st : α → α} (h : ∀ x ∈ xs, Good f HA HB T x) (hst : ∀ x ∈ xs, f (st x) = f x) (be : Backend) (filled : List Bool)
    (dd : List Bool × List Nat) :
    view f (parallelInsertWithC st be HA T xs filled dd).table = (HashTable.parallelInsertWith be HB (view f T) (xs.map f) filled dd).table ∧
      (parallelInsertWithC st be HA T xs filled dd).inserted = (HashTable.parallelInsertWith be HB (view f T) (xs.map f) filled dd).inserted ∧
      (parallelInsertWithC st be HA T xs filled dd).unique = (HashTable.parallelInsertWith be HB (view f T) (xs.map f) filled dd).unique ∧
      (parallelInsertWithC st be HA T xs filled dd).idx = (HashTable.parallelInsertWith be HB (view f T) (xs.map f) filled dd).idx := by
  unfold HashTable.parallelInsertWith parallelInsertWithC
  dsimp only
  rw [lookupLanes_view h, List.length_map]
  generalize HashTable.lookupLanes HA T xs _ filled = ls
  have e1 : (ls.map (viewLane f)).map (·.found) = ls.map (·.found) := by rw [List.map_map]; rfl
  have e2 : (ls.map (viewLane f)).map (fun l => ({ bucket := l.bucket, slot := l.slot } : Pos)) = ls.map fun l => ({ bucket := l.bucket, slot := l.slot } : Pos) := by
    rw [List.map_map]; rfl
  rw [e1, e2]
  obtain ⟨h1, h2⟩ := placeBy_view h hst be (ls.map fun l => ({ bucket := l.bucket, slot := l.slot } : Pos))
    (tab xs.length fun i => !(ls.map (·.found)).getD i false && dd.1.getD i false)
  rw [← h1, ← h2]
  exact ⟨rfl, rfl, rfl, rfl⟩

theorem lookupParallel_view {T : Table α} {xs : List α} (h : ∀ x ∈ xs, Good f HA HB T x) (filled : List Bool) :
    HashTable.lookupParallel HB (view f T) (xs.map f) filled = HashTable.lookupParallel HA T xs filled := by
  unfold HashTable.lookupParallel
  rw [show (xs.map f).map (fun _ => false) = xs.map (fun _ => false) by rw [List.map_map]; rfl, lookupLanes_view h, List.map_map]
  rfl

end View

/-! ## Bytes tell values -/

/-- Every number can be represented in the dtype of its field. -/
def FitsV (ds : List Dt) (vs : List (List Int)) : Prop := ∀ p ∈ ds.zip vs, ∀ v ∈ p.2, wrap p.1 v = v

theorem fits_iff {E : Decl lens} {x : Inst lens} : Fits E x ↔ FitsV E.ds x.vals.1 := by
  unfold Fits FitsV Inst.vals
  simp only
  rw [List.zip_map_right]
  simp only [List.mem_map, forall_exists_index, and_imp, forall_apply_eq_imp_iff₂]
  rfl

theorem typed_fits {E : Decl lens} {x : Inst lens} (h : Typed E x) : Fits E x := by
  intro p hp v hv
  have h' : x.fields.map (·.1) = E.ds := h
  rw [← h', List.zip_map_left] at hp
  obtain ⟨q, hq, rfl⟩ := List.mem_map.1 hp
  obtain ⟨i, hi, rfl⟩ := List.mem_iff_getElem.1 hq
  rw [List.getElem_zip] at hv ⊢
  exact (x.ok _ (List.getElem_mem _)).2 v hv

theorem ofInt_inj {w : Nat} {a b : Int} (h : BitVec.ofInt w a = BitVec.ofInt w b) : a % 2 ^ w = b % 2 ^ w := by
  have h := congrArg BitVec.toNat h
  rw [BitVec.toNat_ofInt, BitVec.toNat_ofInt] at h
  have hp : (0 : Int) < ((2 ^ w : Nat) : Int) := by
    have := Nat.two_pow_pos w
    omega
  have h1 := Int.emod_nonneg a (Int.ne_of_gt hp)
  have h2 := Int.emod_nonneg b (Int.ne_of_gt hp)
  have : a % ((2 ^ w : Nat) : Int) = b % ((2 ^ w : Nat) : Int) := by omega
  push_cast at this
  exact this

theorem map_inj_on {γ : Type} {δ : Type} {g : γ → δ} : ∀ {l l' : List γ}, (∀ a ∈ l, ∀ b ∈ l', g a = g b → a = b) → l.map g = l'.map g → l = l'
  | [], [], _, _ => rfl
  | [], _ :: _, _, h => by simp at h
  | _ :: _, [], _, h => by simp at h
  | a :: l, b :: l', hg, h => by
    rw [List.map_cons, List.map_cons, List.cons.injEq] at h
    rw [hg a List.mem_cons_self b List.mem_cons_self h.1,
      map_inj_on (fun x hx y hy => hg x (List.mem_cons_of_mem _ hx) y (List.mem_cons_of_mem _ hy)) h.2]

theorem enc_inj {d : Dt} (hd : d.isInt = true) {vs ws : List Int} (hv : ∀ v ∈ vs, wrap d v = v) (hw : ∀ w ∈ ws, wrap d w = w) (h : enc d vs = enc d ws) : vs = ws := by
  have key : ∀ n : Nat, (∀ a ∈ vs, ∀ b ∈ ws, a % 2 ^ n = b % 2 ^ n → a = b) → vs.map (BitVec.ofInt n) = ws.map (BitVec.ofInt n) → vs = ws :=
    fun n hn he => map_inj_on (fun a ha b hb hab => hn a ha b hb (ofInt_inj hab)) he
  cases d <;> first | cases hd | skip
  · refine map_inj_on (g := fun v : Int => decide (v ≠ 0)) (fun a ha b hb hab => ?_) (by simpa [enc] using h)
    have h1 := hv a ha
    have h2 := hw b hb
    simp only [wrap] at h1 h2
    have : (a = 0 ↔ b = 0) := by simpa using hab
    omega
  · refine key 8 (fun a ha b hb hab => ?_) (by simpa [enc] using h)
    have h1 := hv a ha; have h2 := hw b hb; simp only [wrap] at h1 h2; omega
  · refine key 16 (fun a ha b hb hab => ?_) (by simpa [enc] using h)
    have h1 := hv a ha; have h2 := hw b hb; simp only [wrap] at h1 h2; omega
  · refine key 32 (fun a ha b hb hab => ?_) (by simpa [enc] using h)
    have h1 := hv a ha; have h2 := hw b hb; simp only [wrap] at h1 h2; omega
  · refine key 8 (fun a ha b hb hab => ?_) (by simpa [enc] using h)
    have h1 := hv a ha; have h2 := hw b hb; simp only [wrap] at h1 h2; omega
  · refine key 16 (fun a ha b hb hab => ?_) (by simpa [enc] using h)
    have h1 := hv a ha; have h2 := hw b hb; simp only [wrap] at h1 h2; omega
  · refine key 32 (fun a ha b hb hab => ?_) (by simpa [enc] using h)
    have h1 := hv a ha; have h2 := hw b hb; simp only [wrap] at h1 h2; omega

theorem zipEnc_inj : ∀ (ds : List Dt) (vs ws : List (List Int)), (∀ d ∈ ds, d.isInt = true) → vs.length = ds.length → ws.length = ds.length →
    FitsV ds vs → FitsV ds ws → List.zipWith enc ds vs = List.zipWith enc ds ws → vs = ws
  | [], [], [], _, _, _, _, _, _ => rfl
  | [], _ :: _, _, _, h, _, _, _, _ => by simp at h
  | [], [], _ :: _, _, _, h, _, _, _ => by simp at h
  | _ :: _, [], _, _, h, _, _, _, _ => by simp at h
  | _ :: _, _ :: _, [], _, _, h, _, _, _ => by simp at h
  | d :: ds, v :: vs, w :: ws, hd, h1, h2, f1, f2, h => by
    rw [List.zipWith_cons_cons, List.zipWith_cons_cons, List.cons.injEq] at h
    have hvw : v = w := enc_inj (hd d List.mem_cons_self) (f1 (d, v) List.mem_cons_self) (f2 (d, w) List.mem_cons_self) h.1
    rw [hvw,
      zipEnc_inj ds vs ws (fun e he => hd e (List.mem_cons_of_mem _ he)) (by simpa using h1) (by simpa using h2)
        (fun p hp => f1 p (List.mem_cons_of_mem _ hp)) (fun p hp => f2 p (List.mem_cons_of_mem _ hp)) h.2]

theorem bits_congr {E : Decl lens} {x y : Inst lens} (h : y.vals = x.vals) : E.bits y = E.bits x := by
  apply Subtype.ext
  show List.zipWith enc E.ds y.vals.1 = List.zipWith enc E.ds x.vals.1
  rw [h]

/-- Instances whose values the dtypes `E` can hold have the same bytes in `E` exactly if they have the same values. -/
theorem bits_iff {E : Decl lens} {x y : Inst lens} (hy : Fits E y) (hx : Fits E x) : E.bits y = E.bits x ↔ y.vals = x.vals := by
  refine ⟨fun h => ?_, bits_congr⟩
  have hl : ∀ z : Inst lens, z.vals.1.length = E.ds.length := fun z => by
    have := congrArg List.length z.vals.2
    rw [List.length_map] at this
    rw [this, E.size]
  exact Subtype.ext (zipEnc_inj E.ds _ _ E.int (hl y) (hl x) (fits_iff.1 hy) (fits_iff.1 hx) (congrArg Subtype.val h))

/-! ## Histories -/

/-- Calls of the API, with items of type `α`. -/
inductive Call (α : Type u) (K : Type v)
  | insert (x : α)
  | parallelInsert (be : Backend) (mode : Mode) (xs : List α) (filled : List Bool) (key : Option (List K))
  | lookup (x : α)
  | lookupParallel (xs : List α) (filled : List Bool)

def Call.items {α : Type u} {K : Type v} : Call α K → List α
  | .insert x | .lookup x => [x]
  | .parallelInsert _ _ xs _ _ | .lookupParallel xs _ => xs

def Call.map {α : Type u} {β : Type w} {K : Type v} (f : α → β) : Call α K → Call β K
  | .insert x => .insert (f x)
  | .parallelInsert be mode xs filled key => .parallelInsert be mode (xs.map f) filled key
  | .lookup x => .lookup (f x)
  | .lookupParallel xs filled => .lookupParallel (xs.map f) filled

/-- What a call returns besides the table. -/
inductive Ret
  | insert (inserted : Bool) (index : Nat)
  | parallelInsert (inserted unique : List Bool) (index : List Nat)
  | lookup (index : Nat) (found : Bool)
  | lookupParallel (r : List (Nat × Bool))

variable {K : Type v} [KeyTop K]

/-- A call with items in the dtypes `E` on a table of a class that declares `D`. -/
def callC (D E : Decl lens) (m : Stream) (seed : W) (T : Table (Inst lens)) : Call (Inst lens) K → Table (Inst lens) × Ret
  | .insert x => let r := insertC D.store (typedHasher m seed lens) T x; (r.1, .insert r.2.1 r.2.2)
  | .parallelInsert be mode xs filled key => let r := parallelInsertC D E m seed be mode T xs filled key; (r.table, .parallelInsert r.inserted r.unique r.idx)
  | .lookup x => let r := HashTable.lookup (typedHasher m seed lens) T x; (T, .lookup r.1 r.2)
  | .lookupParallel xs filled => (T, .lookupParallel (HashTable.lookupParallel (typedHasher m seed lens) T xs filled))

/-- A call on an ordinary table. -/
def callH {α : Type u} [DecidableEq α] (H : Hasher α) (T : Table α) : Call α K → Table α × Ret
  | .insert x => let r := HashTable.insert H T x; (r.1, .insert r.2.1 r.2.2)
  | .parallelInsert be mode xs filled key => let r := HashTable.parallelInsert be mode H T xs filled key; (r.table, .parallelInsert r.inserted r.unique r.idx)
  | .lookup x => let r := HashTable.lookup H T x; (T, .lookup r.1 r.2)
  | .lookupParallel xs filled => (T, .lookupParallel (HashTable.lookupParallel H T xs filled))

/-- A history: the table at the end and everything the calls returned. -/
def history {α : Type u} (call : Table α → Call α K → Table α × Ret) : Table α → List (Call α K) → Table α × List Ret
  | T, [] => (T, [])
  | T, c :: cs => let r := call T c; let q := history call r.1 cs; (q.1, r.2 :: q.2)

/-- What the table of a class declaring `D` holds when it is used with items in the dtypes `E`. -/
def Holds (D E : Decl lens) (T : Table (Inst lens)) : Prop := ∀ y ∈ T.table, Typed D y ∧ Fits E y

theorem good_bits {D E : Decl lens} {m : Stream} {seed : W} {T : Table (Inst lens)} (hT : Holds D E T) {x : Inst lens} (hx : Typed E x) (hD : Fits D x) :
    Good E.bits (typedHasher m seed lens) (classHasher m E.layout seed) T x := by
  refine ⟨⟨?_, ?_, fun _ _ => rfl⟩, fun y hy => ?_⟩
  · show (hashPair m (E.bits x).1 seed).1.toNat = _
    rw [bits_eq_leaves hx]; rfl
  · show (hashPair m (E.bits x).1 seed).2.toNat = _
    rw [bits_eq_leaves hx]; rfl
  · rw [beq_vals (hT y hy).1 hD, Bool.eq_iff_iff, beq_iff_eq, beq_iff_eq, bits_iff (hT y hy).2 (typed_fits hx)]

theorem store_fits {D E : Decl lens} {x : Inst lens} (hx : Typed E x) (hD : Fits D x) : Fits E (D.store x) := by
  rw [fits_iff, store_vals hD, ← fits_iff]
  exact typed_fits hx

theorem scatterSet_mem {α : Type u} {l : List α} {idx : List Nat} {vs : List α} {b : α} (h : b ∈ scatterSet l idx vs) : b ∈ l ∨ b ∈ vs := by
  unfold SortGroup.scatterSet at h
  induction idx generalizing l vs with
  | nil => exact Or.inl h
  | cons a idx ih =>
    cases vs with
    | nil => exact Or.inl h
    | cons v vs =>
      rcases ih h with h | h
      · rcases List.mem_or_eq_of_mem_set h with h | h
        · exact Or.inl h
        · exact Or.inr (by simp [h])
      · exact Or.inr (by simp [h])

theorem placeByC_mem {α : Type u} [BEq α] {st : α → α} {be : Backend} {H : Hasher α} {T : Table α} {xs : List α} {pos0 : List Pos} {upd : List Bool} {y : α}
    (h : y ∈ (placeByC st be H T xs pos0 upd).1.table) : y ∈ T.table ∨ y ∈ xs.map st := by
  cases be with
  | xla => exact scatterSet_mem h
  | triton mpb sched =>
    unfold placeByC at h
    dsimp only at h
    by_cases hb : T.bs ≤ 32
    · rw [if_pos hb] at h; exact scatterSet_mem h
    · rw [if_neg hb] at h; exact scatterSet_mem h
  | pallas mpb =>
    unfold placeByC at h
    dsimp only at h
    by_cases hb : T.bs ≤ 32
    · rw [if_pos hb] at h; exact scatterSet_mem h
    · rw [if_neg hb] at h; exact scatterSet_mem h

theorem callC_holds {D E : Decl lens} {m : Stream} {seed : W} {T : Table (Inst lens)} (hT : Holds D E T) (c : Call (Inst lens) K)
    (hc : ∀ x ∈ c.items, Typed E x ∧ Fits D x) : Holds D E (callC D E m seed T c).1 := by
  have hst : ∀ x, Typed E x ∧ Fits D x → Typed D (D.store x) ∧ Fits E (D.store x) := fun x hx => ⟨store_typed D x, store_fits hx.1 hx.2⟩
  cases c with
  | insert x =>
    intro y hy
    simp only [callC, insertC] at hy
    by_cases h : (!(HashTable.lookupBucket (typedHasher m seed lens) T x).2 && decide (HashTable.rd T.fill (HashTable.lookupBucket (typedHasher m seed lens) T x).1.1 ≤
        (HashTable.lookupBucket (typedHasher m seed lens) T x).1.2)) = true
    · rw [if_pos h] at hy
      rcases scatterU1_mem hy with h | rfl
      · exact hT y h
      · exact hst x (hc x List.mem_cons_self)
    · rw [if_neg h] at hy
      exact hT y hy
  | parallelInsert be mode xs filled key =>
    intro y hy
    rcases placeByC_mem (show y ∈ (placeByC _ _ _ _ _ _ _).1.table from hy) with h | h
    · exact hT y h
    · obtain ⟨x, hx, rfl⟩ := List.mem_map.1 h
      exact hst x (hc x hx)
  | lookup x => exact hT
  | lookupParallel xs filled => exact hT

theorem callC_view {D E : Decl lens} {m : Stream} {seed : W} {T : Table (Inst lens)} (hT : Holds D E T) (c : Call (Inst lens) K)
    (hc : ∀ x ∈ c.items, Typed E x ∧ Fits D x) :
    view E.bits (callC D E m seed T c).1 = (callH (classHasher m E.layout seed) (view E.bits T) (c.map E.bits)).1 ∧
      (callC D E m seed T c).2 = (callH (classHasher m E.layout seed) (view E.bits T) (c.map E.bits)).2 := by
  have hg : ∀ x ∈ c.items, Good E.bits (typedHasher m seed lens) (classHasher m E.layout seed) T x := fun x hx => good_bits hT (hc x hx).1 (hc x hx).2
  have hst : ∀ x ∈ c.items, E.bits (D.store x) = E.bits x := fun x hx => bits_congr (store_vals (hc x hx).2)
  cases c with
  | insert x =>
    have hx := hg x List.mem_cons_self
    obtain ⟨h1, h2⟩ := insert_view (st := D.store) hx.1 hx.2 (hst x List.mem_cons_self)
    simp only [callC, callH, Call.map]
    exact ⟨h1, by rw [h2]⟩
  | parallelInsert be mode xs filled key =>
    obtain ⟨h1, h2, h3, h4⟩ := parallel_view (xs := xs) (st := D.store) (f := E.bits) hg hst be filled (dedupe mode (classHasher m E.layout seed).toEnc (xs.map E.bits) filled key)
    simp only [callC, callH, Call.map, parallelInsertC, HashTable.parallelInsert]
    exact ⟨h1, by rw [h2, h3, h4]⟩
  | lookup x =>
    have hx := hg x List.mem_cons_self
    have h := lookup_view hx.1 hx.2
    simp only [callC, callH, Call.map, HashTable.lookup]
    rw [h]
    exact ⟨trivial, rfl⟩
  | lookupParallel xs filled =>
    have h := lookupParallel_view (xs := xs) hg filled
    simp only [callC, callH, Call.map]
    rw [h]
    exact ⟨trivial, rfl⟩

/-- **C108 (8).**  A table of a class that declares the dtypes `D`, used only with items and batches in other integer dtypes `E` whose values `D` can hold, returns from every
call of every history exactly what the table of the class that declares `E` returns - flags, masks and indices -, holds the same values in the same slots, and holds them in the
declared dtypes `D`.  (`E` must be able to hold the values of the default record.) -/
theorem batches_same_dtypes (D E : Decl lens) (m : Stream) (seed : W) (d : Inst lens) (hd : Typed D d) (hdE : Fits E d) (capacity bs mult : Nat) (mp : Option Nat)
    (cs : List (Call (Inst lens) K)) (hcs : ∀ c ∈ cs, ∀ x ∈ c.items, Typed E x ∧ Fits D x) :
    let r := history (callC D E m seed) (HashTable.build d capacity bs mult mp) cs
    let q := history (callH (classHasher m E.layout seed)) (HashTable.build (E.bits d) capacity bs mult mp) (cs.map (Call.map E.bits))
    r.2 = q.2 ∧ r.1.size = q.1.size ∧ r.1.fill = q.1.fill ∧ r.1.table.map E.bits = q.1.table ∧ ∀ y ∈ r.1.table, Typed D y ∧ Fits E y := by
  have hb : view E.bits (HashTable.build d capacity bs mult mp) = HashTable.build (E.bits d) capacity bs mult mp := by
    unfold view HashTable.build
    simp
  have hB : Holds D E (HashTable.build d capacity bs mult mp) := fun y hy => by
    rw [List.eq_of_mem_replicate hy]; exact ⟨hd, hdE⟩
  have key : ∀ (cs : List (Call (Inst lens) K)) (T : Table (Inst lens)), Holds D E T → (∀ c ∈ cs, ∀ x ∈ c.items, Typed E x ∧ Fits D x) →
      (history (callC D E m seed) T cs).2 = (history (callH (classHasher m E.layout seed)) (view E.bits T) (cs.map (Call.map E.bits))).2 ∧
      view E.bits (history (callC D E m seed) T cs).1 = (history (callH (classHasher m E.layout seed)) (view E.bits T) (cs.map (Call.map E.bits))).1 ∧
      Holds D E (history (callC D E m seed) T cs).1 := by
    intro cs
    induction cs with
    | nil => intro T hT _; exact ⟨rfl, rfl, hT⟩
    | cons c cs ih =>
      intro T hT h
      have h0 := h c List.mem_cons_self
      obtain ⟨v1, v2⟩ := callC_view (m := m) (seed := seed) hT c h0
      obtain ⟨i1, i2, i3⟩ := ih _ (callC_holds (m := m) (seed := seed) hT c h0) fun c' hc' => h c' (List.mem_cons_of_mem _ hc')
      rw [v1] at i1 i2
      rw [List.map_cons]
      simp only [history]
      exact ⟨by rw [v2, i1], i2, i3⟩
  obtain ⟨k1, k2, k3⟩ := key cs _ hB hcs
  rw [hb] at k1 k2
  exact ⟨k1, congrArg Table.size k2, congrArg Table.fill k2, congrArg Table.table k2, k3⟩

/-- The part of a call that changes the table. -/
def Call.op {α : Type u} : Call α K → Option (HashTable.Op α K)
  | .insert x => some (.insert x)
  | .parallelInsert be mode xs filled key => some (.parallelInsert be mode xs filled key)
  | .lookup _ | .lookupParallel _ _ => none

theorem history_exec {α : Type u} [DecidableEq α] (H : Hasher α) : ∀ (cs : List (Call α K)) (T : Table α),
    (history (callH H) T cs).1 = HashTable.exec H T (cs.filterMap Call.op)
  | [], _ => rfl
  | c :: cs, T => by
    have ih := history_exec H cs (callH H T c).1
    show (history (callH H) (callH H T c).1 cs).1 = _
    rw [ih]
    cases c <;> rfl

/-- **C108 (9).**  So what holds for every table holds here, too: for instance, values are stored once, `size` counts them, and an item is found exactly if its value is stored,
whether it was inserted alone or in a batch. -/
theorem batches_behave (D E : Decl lens) (m : Stream) (seed : W) (d : Inst lens) (hd : Typed D d) (hdE : Fits E d) {capacity bs mult : Nat} {mp : Option Nat}
    (hv : HashTable.ValidParams capacity bs mult mp) (cs : List (Call (Inst lens) K)) (hcs : ∀ c ∈ cs, ∀ x ∈ c.items, Typed E x ∧ Fits D x)
    (T : Table (Inst lens)) (hT : T = (history (callC D E m seed) (HashTable.build d capacity bs mult mp) cs).1) :
    (∀ i j v, At T i v → At T j v → i = j) ∧ T.size = HashTable.occupiedCount T ∧
    ∀ x, Typed E x → Fits D x → ((HashTable.lookup (typedHasher m seed lens) T x).2 = true ↔ ∃ i, At T i x.vals) ∧
      ((HashTable.lookup (typedHasher m seed lens) T x).2 = true → At T (HashTable.lookup (typedHasher m seed lens) T x).1 x.vals) := by
  have hh := (batches_same_dtypes D E m seed d hd hdE capacity bs mult mp cs hcs).2.2.2.2
  have hT' : Holds D E T := by rw [hT]; exact hh
  have hview : view E.bits T = HashTable.exec (classHasher m E.layout seed) (HashTable.build (E.bits d) capacity bs mult mp) ((cs.map (Call.map E.bits)).filterMap Call.op) := by
    rw [← history_exec, hT]
    clear hT hT' hh
    have hb : view E.bits (HashTable.build d capacity bs mult mp) = HashTable.build (E.bits d) capacity bs mult mp := by
      unfold view HashTable.build
      simp
    have hB : Holds D E (HashTable.build d capacity bs mult mp) := fun y hy => by
      rw [List.eq_of_mem_replicate hy]; exact ⟨hd, hdE⟩
    rw [← hb]
    clear hb
    generalize HashTable.build d capacity bs mult mp = T at hB
    induction cs generalizing T with
    | nil => rfl
    | cons c cs ih =>
      have h0 := hcs c List.mem_cons_self
      have h1 := (callC_view (m := m) (seed := seed) hB c h0).1
      have h2 := ih (fun c' hc' => hcs c' (List.mem_cons_of_mem _ hc')) _ (callC_holds (m := m) (seed := seed) hB c h0)
      rw [h1] at h2
      exact h2
  have hr : HashTable.Reachable K (classHasher m E.layout seed) (view E.bits T) := ⟨_, capacity, bs, mult, mp, _, hv, hview⟩
  have hget : ∀ i, HashTable.getitem (view E.bits T) i = (HashTable.getitem T i).map E.bits := fun i => by
    unfold HashTable.getitem view Jax.gatherU
    rw [List.length_map, List.getElem?_map]
  have hmem : ∀ {i y}, HashTable.getitem T i = some y → y ∈ T.table := fun h => List.mem_of_getElem? h
  have hst : ∀ x, Typed E x → ∀ i, HashTable.Stored (view E.bits T) (E.bits x) i ↔ At T i x.vals := by
    intro x hx i
    unfold HashTable.Stored At
    rw [hget, Option.map_eq_some_iff]
    refine and_congr Iff.rfl ⟨fun ⟨y, hy, h⟩ => ⟨y, hy, (bits_iff (hT' y (hmem hy)).2 (typed_fits hx)).1 h⟩, fun ⟨y, hy, h⟩ => ⟨y, hy, bits_congr h⟩⟩
  refine ⟨fun i j v hi hj => ?_, (HashTable.stored_once hr).2, fun x hx hD => ?_⟩
  · refine (HashTable.stored_once hr).1 i j hi.1 hj.1 ?_
    obtain ⟨_, y, hy, hyv⟩ := hi
    obtain ⟨_, z, hz, hzv⟩ := hj
    rw [hget, hget, hy, hz, Option.map_some, Option.map_some, bits_congr (hyv.trans hzv.symm)]
  · have h := HashTable.lookup_exact hr (E.bits x)
    have hg := good_bits (m := m) (seed := seed) hT' hx hD
    have hl : HashTable.lookup (classHasher m E.layout seed) (view E.bits T) (E.bits x) = HashTable.lookup (typedHasher m seed lens) T x := by
      unfold HashTable.lookup
      rw [lookup_view hg.1 hg.2]
      rfl
    rw [hl] at h
    exact ⟨h.1.trans ⟨fun ⟨i, hi⟩ => ⟨i, (hst x hx i).1 hi⟩, fun ⟨i, hi⟩ => ⟨i, (hst x hx i).2 hi⟩⟩, fun hf => (hst x hx _).1 (h.2 hf).1⟩

/-! ## A case: declared `uint8` and `int16[2]`, used with `int32` -/

def exD : Decl [1, 2] := ⟨[.u8, .i16], rfl, by decide⟩
def exE : Decl [1, 2] := ⟨[.i32, .i32], rfl, by decide⟩
def exDefault : Inst [1, 2] := ⟨[(.u8, [255]), (.i16, [-1, -1])], rfl, by decide⟩
def exItem (a : Nat) (h : a < 8) : Inst [1, 2] := ⟨[(.i32, [a]), (.i32, [-5, a])], rfl, by
  intro f hf
  rcases List.mem_cons.1 hf with rfl | hf
  · refine ⟨rfl, fun v hv => ?_⟩
    rw [List.mem_singleton] at hv; subst hv; simp only [wrap]; omega
  · rw [List.mem_singleton] at hf; subst hf
    refine ⟨rfl, fun v hv => ?_⟩
    rcases List.mem_cons.1 hv with rfl | hv
    · rfl
    · rw [List.mem_singleton] at hv; subst hv; simp only [wrap]; omega⟩

def exCalls : List (Call (Inst [1, 2]) (Option Nat)) :=
  [.parallelInsert .xla .safe [exItem 3 (by decide), exItem 4 (by decide), exItem 3 (by decide)] [true, true, true] none, .lookup (exItem 4 (by decide)),
    .insert (exItem 3 (by decide))]

example : Typed exD exDefault ∧ Fits exE exDefault ∧ (∀ c ∈ exCalls, ∀ x ∈ c.items, Typed exE x ∧ Fits exD x) ∧ HashTable.ValidParams 8 2 2 none := by
  refine ⟨rfl, ?_, ?_, ⟨by decide, by decide, by decide, fun m h => (by cases h)⟩⟩
  · unfold Fits; decide
  · unfold Typed Fits; decide

end DtypeMix
