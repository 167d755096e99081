import Verif.HashPair
import Verif.HTProps
import Verif.StoreContainers

/-!
# C112: hash tables given items whose fields have other dtypes than the class

Nothing checks or converts the dtypes of the items given to `insert`, `lookup`, `parallel_insert` and `lookup_parallel`.  The item is hashed with the dtypes it has, compared with
stored items after promotion, and converted to the dtypes of the class when it is written.
-/

namespace MixedTable

open HashTable Jax SortGroup Dedupe

variable {β : Type}

/-! ## Model -/

/-- What the code takes from an item it is given: the two hashes and the words of the item as it is (hash_utils.py:539-594), the fingerprint, the comparison `stored == item`
(lookup.py:63, 80; ops.py:27-53), and the value that ends up in a slot (insert.py:92-94, 41-51). -/
structure Probe (β : Type) where
  h1 : Nat
  h2 : Nat
  fp : Nat
  words : List Nat
  same : β → Bool
  stored : β

/-- Start bucket (hash_utils.py:554-562, 583-591). -/
def Probe.start (p : Probe β) (T : Table β) : Nat :=
  let m := max T.cap 1
  if m &&& (m - 1) = 0 then p.h1 &&& (m - 1) else p.h1 % m

/-- Probe step (hash_utils.py:506-516). -/
def Probe.step (p : Probe β) (T : Table β) : Nat :=
  let m := max T.cap 1
  (if m &&& (m - 1) = 0 then p.h2 &&& (m - 1) else p.h2 % m) ||| 1

/-- `fp_matches` (lookup.py:47-54). -/
def fpMatchesP (T : Table β) (p : Probe β) (b : Nat) : List Bool :=
  tab T.bs fun s => decide (s < limit T b) && (rd T.fps (flat T b s) == p.fp)

/-- One bucket comparison (lookup.py:53-95, 182-252). -/
def scanP (T : Table β) (p : Probe β) (b : Nat) : Bool × Nat :=
  let m := fpMatchesP T p b
  let first := argmaxB m
  let foundFast := m.any id && (gatherU T.table (flat T b first)).any p.same
  let other := tab T.bs fun s => m.getD s false && (s != first)
  let needFallback := !foundFast && other.any id
  let eqs := tab T.bs fun s => other.getD s false && (gatherU T.table (flat T b s)).any p.same
  let fb := if needFallback then (eqs.any id, argmaxB eqs) else (false, 0)
  (foundFast || fb.1, if foundFast then first else fb.2)

/-- `while_loop` of `_hashtable_lookup_internal` (lookup.py:38-41, 42-113, 115). -/
def lookupLoopP (T : Table β) (p : Probe β) : Nat → Nat → Nat → Bool → Nat → (Nat × Nat) × Bool
  | 0, b, s, found, _ => ((b, s), found)
  | fuel + 1, b, s, found, probes =>
    if !found && decide (probes < T.maxProbes) then
      let r := scanP T p b
      let full := limit T b == T.bs
      let stop := r.1 || !full
      lookupLoopP T p fuel (if stop then b else next T b (p.step T)) (if stop then (if r.1 then r.2 else limit T b) else 0) r.1
        (if stop then T.maxProbes else probes + T.bs)
    else ((b, s), found)

/-- `_hashtable_lookup_bucket_jit` (lookup.py:119-131). -/
def lookupBucketP (T : Table β) (p : Probe β) : (Nat × Nat) × Bool := lookupLoopP T p (T.maxProbes + 1) (p.start T) 0 false 0

/-- `table.lookup(item)` (lookup.py:134-138). -/
def lookupP (T : Table β) (p : Probe β) : Nat × Bool :=
  let r := lookupBucketP T p
  (flat T r.1.1 r.1.2, r.2)

/-- `table.insert(item)` (insert.py:81-131).  `around` is what writing with these dtypes does to every slot of the table: there and back through the common dtype (C110). -/
def insertP (around : β → β) (T : Table β) (p : Probe β) : Table β × Bool × Nat :=
  let r := lookupBucketP T p
  let b := r.1.1
  let s := r.1.2
  let can := !r.2 && decide (rd T.fill b ≤ s)
  let T' := if can then
      { T with
        table := scatterU1 (T.table.map around) (flat T b s) p.stored
        fps := scatterU1 T.fps (flat T b s) p.fp
        fill := scatterU1 T.fill b (rd T.fill b + 1)
        size := (T.size + 1) % 2 ^ 32
        occ := if T.bs ≤ 32 then scatterU1 T.occ b (rd T.occ b ||| (2 ^ s % 2 ^ 32)) else T.occ }
    else T
  (T', can, flat T b s)

/-- State of one lane of `_hashtable_lookup_parallel_internal`. -/
structure LaneP (β : Type) where
  p : Probe β
  bucket : Nat
  slot : Nat
  found : Bool
  probes : Nat
  active : Bool

/-- Loop body for one lane (lookup.py:171-294). -/
def laneStepP (T : Table β) (l : LaneP β) : LaneP β :=
  let stepActive := l.active && !l.found && decide (l.probes < T.maxProbes)
  if stepActive then
    let r := scanP T l.p l.bucket
    let probes := l.probes + T.bs
    let cont := !r.1 && (limit T l.bucket == T.bs) && decide (probes < T.maxProbes)
    { p := l.p, bucket := if cont then next T l.bucket (l.p.step T) else l.bucket,
      slot := if cont then 0 else (if r.1 then r.2 else limit T l.bucket),
      found := l.found || r.1, probes := probes, active := cont }
  else { l with active := false }

/-- `while any(active)` (lookup.py:167-169, 296-299). -/
def laneLoopP (T : Table β) : Nat → List (LaneP β) → List (LaneP β)
  | 0, ls => ls
  | fuel + 1, ls => if ls.any (·.active) then laneLoopP T fuel (ls.map (laneStepP T)) else ls

/-- `_hashtable_lookup_parallel_internal` (lookup.py:141-299). -/
def lookupLanesP (T : Table β) (ps : List (Probe β)) (found active : List Bool) : List (LaneP β) :=
  laneLoopP T (T.maxProbes + 1) (ps.zipIdx.map fun p =>
    { p := p.1, bucket := p.1.start T, slot := 0, found := found.getD p.2 false, probes := 0, active := active.getD p.2 false })

/-- `table.lookup_parallel(items, filled)` (lookup.py:302-348) with an array mask. -/
def lookupParallelP (T : Table β) (ps : List (Probe β)) (filled : List Bool) : List (Nat × Bool) :=
  (lookupLanesP T ps (ps.map fun _ => false) filled).map fun l => (flat T l.bucket l.slot, l.found)

/-- `_hashtable_parallel_insert_internal` (insert.py:134-255). -/
def placeP (around : β → β) (T : Table β) (ps : List (Probe β)) (pos0 : List Pos) (upd : List Bool) : Table β × List Pos × List Bool :=
  let n := upd.length
  let pos := placeLoop T (ps.map (·.step T)) upd T.maxProbes pos0
  let pend := pendings T upd pos
  let ok := tab n fun i => upd.getD i false && !pend.getD i false && decide ((pos.getD i default).slot < T.bs)
  let idx := tab n fun i => if ok.getD i false then flat T (pos.getD i default).bucket (pos.getD i default).slot else T.fps.length
  let T' := { T with
    table := scatterSet (T.table.map around) idx (ps.map (·.stored))
    fps := scatterSet T.fps idx (ps.map (·.fp))
    fill := scatterAdd T.fill (pos.map (·.bucket)) (ok.map Bool.toNat)
    size := (T.size + ok.countP id) % 2 ^ 32
    occ := if T.bs ≤ 32 then scatterAdd T.occ (pos.map (·.bucket))
        (tab n fun i => if ok.getD i false then 2 ^ (pos.getD i default).slot % 2 ^ 32 else 0)
      else T.occ }
  (T', pos, ok)

/-- Table update shared by the two kernels' wrappers (insert.py:280-296, 313-320 and 346-370). -/
def applyReservedP (around : β → β) (T : Table β) (ps : List (Probe β)) (r : Reserved) : Table β × List Pos × List Bool :=
  let idx := tab r.ok.length fun i =>
    if r.ok.getD i false then flat T (r.pos.getD i default).bucket (r.pos.getD i default).slot else T.fps.length
  ({ T with
      table := scatterSet (T.table.map around) idx (ps.map (·.stored))
      fps := scatterSet T.fps idx (ps.map (·.fp))
      fill := r.fill
      occ := r.occ
      size := (T.size + r.ok.countP id) % 2 ^ 32 },
   r.pos.map (fun p => { p with slot := p.slot % 256 }), r.ok)

/-- Reservation by back-end (insert.py:456-498). -/
def placeByP (around : β → β) (be : Backend) (T : Table β) (ps : List (Probe β)) (pos0 : List Pos) (upd : List Bool) : Table β × List Pos × List Bool :=
  match be with
  | .xla => placeP around T ps pos0 upd
  | .triton mpb sched =>
    if T.bs ≤ 32 then applyReservedP around T ps (tritonReserve T (ps.map (·.step T)) (pos0.map (·.bucket)) upd mpb sched)
    else placeP around T ps pos0 upd
  | .pallas mpb =>
    if T.bs ≤ 32 then applyReservedP around T ps (pallasReserve T (ps.map (·.step T)) (pos0.map (·.bucket)) upd mpb)
    else placeP around T ps pos0 upd

/-- `table.parallel_insert(items, filled, unique_key)` (insert.py:383-552) with an array mask; `wc` is the number of words of the items given. -/
def parallelInsertP {K : Type} [KeyTop K] (around : β → β) (be : Backend) (mode : Mode) (wc : Nat) (T : Table β) (ps : List (Probe β)) (filled : List Bool)
    (key : Option (List K)) : PResult β :=
  let n := ps.length
  let dd := dedupePairs mode n wc (ps.map (·.h1)) (ps.map (·.h2)) (ps.map (·.words)) filled key
  let lanes := lookupLanesP T ps (tab n fun i => !dd.1.getD i false) filled
  let found := lanes.map (·.found)
  let upd := tab n fun i => !found.getD i false && dd.1.getD i false
  let pos0 := lanes.map fun l => ({ bucket := l.bucket, slot := l.slot } : Pos)
  let r := placeByP around be T ps pos0 upd
  let prov := tab n fun i => if found.getD i false || !r.2.2.getD i false then pos0.getD i default else r.2.1.getD i default
  { table := r.1, inserted := r.2.2, unique := dd.1,
    idx := tab n fun i => let p := prov.getD (dd.2.getD i 0) default; flat T p.bucket p.slot }

/-! ## Probes that do what an item of the class does -/

variable [DecidableEq β]

/-- The probe behaves, on table `T`, like the item `y` of the class. -/
structure Agrees (H : Hasher β) (T : Table β) (p : Probe β) (y : β) : Prop where
  h1 : p.h1 = H.h1 y
  h2 : p.h2 = H.h2 y
  fp : p.fp = H.fp y
  words : p.words = H.words y
  stored : p.stored = y
  same : ∀ s ∈ T.table, p.same s = decide (s = y)

section Agree

variable {H : Hasher β} {T : Table β} {p : Probe β} {y : β}

theorem gather_any (h : Agrees H T p y) (i : Nat) : (gatherU T.table i).any p.same = (gatherU T.table i == some y) := by
  cases e : gatherU T.table i with
  | none => rfl
  | some s =>
    have hm : s ∈ T.table := List.mem_of_getElem? e
    show p.same s = _
    rw [h.same s hm]
    rfl

theorem start_agree (h : Agrees H T p y) : p.start T = HashTable.start H T y := by
  unfold Probe.start HashTable.start; rw [h.h1]

theorem step_agree (h : Agrees H T p y) : p.step T = HashTable.step H T y := by
  unfold Probe.step HashTable.step; rw [h.h2]

theorem scan_agree (h : Agrees H T p y) (b : Nat) : scanP T p b = scanBucket H T y b := by
  unfold scanP scanBucket
  have hm : fpMatchesP T p b = fpMatches H T y b := by unfold fpMatchesP fpMatches; rw [h.fp]
  simp only [hm, gather_any h]

theorem loop_agree (h : Agrees H T p y) : ∀ fuel b s found probes, lookupLoopP T p fuel b s found probes = lookupLoop H T y fuel b s found probes
  | 0, _, _, _, _ => rfl
  | fuel + 1, b, s, found, probes => by
    unfold lookupLoopP lookupLoop
    simp only [scan_agree h, step_agree h, loop_agree h fuel]

/-- `lookup`. -/
theorem lookup_agree (h : Agrees H T p y) : lookupP T p = HashTable.lookup H T y := by
  unfold lookupP HashTable.lookup lookupBucketP lookupBucket
  simp only [loop_agree h, start_agree h]

/-- `insert`. -/
theorem insert_agree (h : Agrees H T p y) {around : β → β} (ha : ∀ s ∈ T.table, around s = s) : insertP around T p = HashTable.insert H T y := by
  have hmap : T.table.map around = T.table := (List.map_congr_left ha).trans (List.map_id _)
  have hl : lookupBucketP T p = lookupBucket H T y := by unfold lookupBucketP lookupBucket; rw [loop_agree h, start_agree h]
  unfold insertP HashTable.insert
  simp only [hl, hmap, h.fp, h.stored]

end Agree

section Batch

variable {H : Hasher β} {T : Table β} {G : Type} {pr : G → Probe β} {cv : G → β} {gs : List G}

/-- The lane of the table of items that a lane stands for. -/
def toLane (y : Probe β → β) (l : LaneP β) : Lane β := ⟨y l.p, l.bucket, l.slot, l.found, l.probes, l.active⟩

theorem lane_agree {l : LaneP β} (h : Agrees H T l.p l.p.stored) : toLane (·.stored) (laneStepP T l) = laneStep H T (toLane (·.stored) l) ∧ (laneStepP T l).p = l.p := by
  have hs := scan_agree h l.bucket
  have ht := step_agree h
  unfold laneStepP laneStep toLane
  simp only [hs, ht]
  by_cases hc : (l.active && !l.found && decide (l.probes < T.maxProbes)) = true
  · rw [if_pos hc, if_pos hc]; exact ⟨rfl, rfl⟩
  · rw [if_neg hc, if_neg hc]; exact ⟨rfl, rfl⟩

theorem lanes_agree : ∀ (fuel : Nat) (ls : List (LaneP β)), (∀ l ∈ ls, Agrees H T l.p l.p.stored) →
    (laneLoopP T fuel ls).map (toLane (·.stored)) = laneLoop H T fuel (ls.map (toLane (·.stored)))
  | 0, _, _ => rfl
  | fuel + 1, ls, h => by
    unfold laneLoopP laneLoop
    have e : (ls.map (toLane (·.stored))).any (·.active) = ls.any (·.active) := by rw [List.any_map]; rfl
    rw [e]
    by_cases hc : ls.any (·.active) = true
    · rw [if_pos hc, if_pos hc, lanes_agree fuel]
      · congr 1
        rw [List.map_map, List.map_map]
        exact List.map_congr_left fun l hl => (lane_agree (h l hl)).1
      · intro l hl
        obtain ⟨l', hl', rfl⟩ := List.mem_map.1 hl
        rw [(lane_agree (h l' hl')).2]
        exact h l' hl'
    · rw [if_neg hc, if_neg hc]

theorem lookupLanes_agree (h : ∀ g ∈ gs, Agrees H T (pr g) (cv g)) (found active : List Bool) :
    (lookupLanesP T (gs.map pr) found active).map (toLane (·.stored)) = lookupLanes H T (gs.map cv) found active := by
  unfold lookupLanesP lookupLanes
  rw [lanes_agree (H := H)]
  · congr 1
    rw [List.zipIdx_map, List.zipIdx_map, List.map_map, List.map_map, List.map_map]
    refine List.map_congr_left fun q hq => ?_
    have hg := h q.1 (List.fst_mem_of_mem_zipIdx hq)
    show toLane (·.stored) _ = (⟨_, _, _, _, _, _⟩ : Lane β)
    unfold toLane
    simp only [Prod.map, id, start_agree hg, hg.stored]
  · intro l hl
    obtain ⟨q, hq, rfl⟩ := List.mem_map.1 hl
    obtain ⟨g, hg, e⟩ := List.mem_map.1 (List.fst_mem_of_mem_zipIdx hq)
    show Agrees H T q.1 q.1.stored
    have := h g hg
    rw [← e, this.stored]
    exact this

/-- `lookup_parallel`. -/
theorem lookupParallel_agree (h : ∀ g ∈ gs, Agrees H T (pr g) (cv g)) (filled : List Bool) :
    lookupParallelP T (gs.map pr) filled = lookupParallel H T (gs.map cv) filled := by
  unfold lookupParallelP lookupParallel
  rw [List.map_map, List.map_map, ← lookupLanes_agree h, List.map_map]
  rfl

/-- `parallel_insert`. -/
theorem parallelInsert_agree {K : Type} [KeyTop K] (h : ∀ g ∈ gs, Agrees H T (pr g) (cv g)) {around : β → β} (ha : ∀ s ∈ T.table, around s = s) (be : Backend) (mode : Mode)
    (filled : List Bool) (key : Option (List K)) :
    parallelInsertP around be mode H.wc T (gs.map pr) filled key = parallelInsert be mode H T (gs.map cv) filled key := by
  have hmap : T.table.map around = T.table := (List.map_congr_left ha).trans (List.map_id _)
  have e1 : (gs.map pr).map (·.h1) = (gs.map cv).map H.h1 := by rw [List.map_map, List.map_map]; exact List.map_congr_left fun g hg => (h g hg).h1
  have e2 : (gs.map pr).map (·.h2) = (gs.map cv).map H.h2 := by rw [List.map_map, List.map_map]; exact List.map_congr_left fun g hg => (h g hg).h2
  have e3 : (gs.map pr).map (·.words) = (gs.map cv).map H.words := by rw [List.map_map, List.map_map]; exact List.map_congr_left fun g hg => (h g hg).words
  have e4 : (gs.map pr).map (·.fp) = (gs.map cv).map H.fp := by rw [List.map_map, List.map_map]; exact List.map_congr_left fun g hg => (h g hg).fp
  have e5 : (gs.map pr).map (·.stored) = gs.map cv := by rw [List.map_map]; exact List.map_congr_left fun g hg => (h g hg).stored
  have e6 : (gs.map pr).map (·.step T) = (gs.map cv).map (HashTable.step H T) := by
    rw [List.map_map, List.map_map]; exact List.map_congr_left fun g hg => step_agree (h g hg)
  have hp : ∀ pos0 upd, placeByP around be T (gs.map pr) pos0 upd = placeBy be H T (gs.map cv) pos0 upd := by
    intro pos0 upd
    have hpl : placeP around T (gs.map pr) pos0 upd = place H T (gs.map cv) pos0 upd := by
      unfold placeP place
      simp only [e4, e5, e6, hmap]
    have hr : ∀ r, applyReservedP around T (gs.map pr) r = applyReserved H T (gs.map cv) r := by
      intro r
      unfold applyReservedP applyReserved
      simp only [e4, e5, hmap]
    unfold placeByP placeBy
    cases be <;> simp only [hpl, hr, e6]
  have hf : ∀ found, (lookupLanesP T (gs.map pr) found filled).map (·.found) = (lookupLanes H T (gs.map cv) found filled).map (·.found) := by
    intro found; rw [← lookupLanes_agree h, List.map_map]; rfl
  have hq : ∀ found, (lookupLanesP T (gs.map pr) found filled).map (fun l => ({ bucket := l.bucket, slot := l.slot } : Pos)) =
      (lookupLanes H T (gs.map cv) found filled).map fun l => ({ bucket := l.bucket, slot := l.slot } : Pos) := by
    intro found; rw [← lookupLanes_agree h, List.map_map]; rfl
  unfold parallelInsertP parallelInsert parallelInsertWith dedupe
  simp only [e1, e2, e3, hp, hf, hq, List.length_map]

end Batch

end MixedTable
