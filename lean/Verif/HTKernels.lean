import Verif.HTRoom

/-!
# C28 and C29: the GPU and TPU reservation kernels, and C22 for them

All history theorems of `HTProps` already range over every back-end (and, for Triton, over every schedule).  Here are the
statements about the reservations themselves.
-/

namespace HashTable

open Jax SortGroup Dedupe

variable {α : Type u} [DecidableEq α] {H : Hasher α} {T : Table α} {K : Type v} [KeyTop K]

/-- What C28/C29 ask of a reservation for the batch `xs` on the table `T`, which gave lane `i` the slot `pos i` if `ok i`,
and produced the fill levels `fill` and occupancy words `occ`:
(1) successful lanes were active and got a slot of a real bucket that was free before;
(2) no two lanes got the same slot;
(3) every bucket's taken slots are the prefix below its new fill level, and the occupancy word says so;
(4) every bucket before the lane's bucket on its probe path is full. -/
structure SafeReservation (H : Hasher α) (T : Table α) (xs : List α) (active : List Bool) (r : Reserved) : Prop where
  free : ∀ i, r.ok.getD i false = true → active.getD i false = true ∧ (r.pos.getD i default).bucket < T.cap ∧
    T.fill.getD (r.pos.getD i default).bucket 0 ≤ (r.pos.getD i default).slot ∧ (r.pos.getD i default).slot < T.bs
  distinct : ∀ i k, r.ok.getD i false = true → r.ok.getD k false = true → r.pos.getD i default = r.pos.getD k default → i = k
  prefix_ : ∀ b, b < T.cap → T.fill.getD b 0 ≤ r.fill.getD b 0 ∧ r.fill.getD b 0 ≤ T.bs ∧
    r.occ.getD b 0 = 2 ^ r.fill.getD b 0 - 1 ∧
    ∀ s, (T.fill.getD b 0 ≤ s ∧ s < r.fill.getD b 0) ↔ ∃ i, r.ok.getD i false = true ∧ r.pos.getD i default = ⟨b, s⟩
  skipped : ∀ i x, r.ok.getD i false = true → xs[i]? = some x → ∃ j, path H T x j = (r.pos.getD i default).bucket ∧
    ∀ l, l < j → r.fill.getD (path H T x l) 0 = T.bs

theorem RInv.safe {xs : List α} {upd : List Bool} {F : Nat → Nat} {r : Reserved} (hsh : Shape T)
    (h : RInv H T xs upd F (fun i => r.ok.getD i false) (fun i => r.pos.getD i default))
    (hfill : ∀ b, b < T.cap → r.fill.getD b 0 = F b) (hocc : ∀ b, b < T.cap → r.occ.getD b 0 = 2 ^ F b - 1) :
    SafeReservation H T xs upd r := by
  refine ⟨?_, h.inj, ?_, ?_⟩
  · intro i hok
    obtain ⟨h1, h2, h3, h4⟩ := h.range i hok
    exact ⟨h1, h2, h3, Nat.lt_of_lt_of_le h4 (h.lo _ h2).2⟩
  · intro b hb
    rw [hfill b hb]
    refine ⟨(h.lo b hb).1, (h.lo b hb).2, hocc b hb, fun s => ⟨fun hs => h.surj b s hb hs.1 hs.2, ?_⟩⟩
    rintro ⟨i, h1, h2⟩
    obtain ⟨_, _, h3, h4⟩ := h.range i h1
    rw [h2] at h3 h4
    exact ⟨h3, h4⟩
  · intro i x h1 h2
    obtain ⟨j, h3, h4⟩ := h.path i x h1 h2
    exact ⟨j, h3, fun l hl => by rw [hfill _ (hsh.path_lt' H x l)]; exact h4 l hl⟩

/-- Lanes handed to the reservation: each active lane stands on its probe path, having passed only full buckets, and the
bucket it stands on is given by `starts`. -/
def StartsOk (H : Hasher α) (T : Table α) (xs : List α) (starts : List Nat) (active : List Bool) : Prop :=
  xs.length = active.length ∧ ∀ i x, active.getD i false = true → xs[i]? = some x →
    ∃ j, starts[i]? = some (path H T x j) ∧ ∀ l, l < j → T.fill.getD (path H T x l) 0 = T.bs

theorem StartsOk.startOk {xs : List α} {starts : List Nat} {active : List Bool} (h : StartsOk H T xs starts active)
    (hl : starts.length = active.length) :
    StartOk H T xs active (starts.map fun b => ⟨b, fillOf T b⟩) := by
  refine ⟨by simpa using hl, h.1, ?_⟩
  intro i x hu hx
  obtain ⟨j, h1, h2⟩ := h.2 i x hu hx
  refine ⟨j, h2, ?_⟩
  rw [List.getD_eq_getElem?_getD, List.getElem?_map, h1]; rfl

theorem map_bucket (starts : List Nat) : (starts.map fun b => (⟨b, fillOf T b⟩ : Pos)).map (·.bucket) = starts := by
  rw [List.map_map]; exact List.map_id _

/-- **C28.**  For every reachable table with at most 32 slots per bucket, every batch, every probe limit and every schedule
of the lanes' atomic steps — stale plain reads included — the Triton reservation is safe. -/
theorem triton_safe (hr : Reachable K H T) (hbs : T.bs ≤ 32) {xs : List α} {starts : List Nat} {active : List Bool}
    (hs : StartsOk H T xs starts active) (hl : starts.length = active.length) (mpb : Nat) (sched : List (Nat × Nat)) :
    SafeReservation H T xs active (tritonReserve T (xs.map (step H T)) starts active mpb sched) := by
  have hi := hr.inv
  have h0 := hs.startOk hl
  obtain ⟨F, hres, hf, ho⟩ := triton_reserved hi hbs h0 mpb sched
  rw [map_bucket] at hres hf ho
  exact RInv.safe hi.toShape hres hf ho

/-- **C28 (all intermediate states).**  At every point of every schedule: the occupancy words are prefixes that only grow,
the slots claimed so far are free slots of the old table, pairwise distinct, and exactly those between the old and the
current fill level. -/
theorem triton_safe_always (hr : Reachable K H T) (hbs : T.bs ≤ 32) {xs : List α} {starts : List Nat} {active : List Bool}
    (hs : StartsOk H T xs starts active) (hl : starts.length = active.length) (mpb : Nat) (sched : List (Nat × Nat)) :
    ∃ F : Nat → Nat,
      (∀ b, b < T.cap → T.fill.getD b 0 ≤ F b ∧ F b ≤ T.bs ∧
        (tRun T (xs.map (step H T)) mpb (tInit T starts active) sched).cur b = 2 ^ F b - 1 ∧
        ∀ s, (T.fill.getD b 0 ≤ s ∧ s < F b) ↔
          ∃ i : Nat, (tRun T (xs.map (step H T)) mpb (tInit T starts active) sched).lanes[i]? = some (TLane.done b s true)) ∧
      ∀ (i k b s : Nat), (tRun T (xs.map (step H T)) mpb (tInit T starts active) sched).lanes[i]? = some (TLane.done b s true) →
        (tRun T (xs.map (step H T)) mpb (tInit T starts active) sched).lanes[k]? = some (TLane.done b s true) → i = k := by
  have hi := hr.inv
  have h0 := hs.startOk hl
  obtain ⟨F, h, _⟩ := tRun_inv hi hbs h0.2.1 (tInit_inv (mpb := mpb) hi hbs h0) sched
  rw [map_bucket] at h
  generalize tRun T (xs.map (step H T)) mpb (tInit T starts active) sched = s at *
  have hdone : ∀ (i b sl : Nat), s.lanes[i]? = some (TLane.done b sl true) → tOk s i = true ∧ tPos s i = ⟨b, sl⟩ := by
    intro i b sl hl; unfold tOk tPos; rw [hl]; exact ⟨rfl, rfl⟩
  have hdone' : ∀ (i b sl : Nat), tOk s i = true → tPos s i = ⟨b, sl⟩ → s.lanes[i]? = some (TLane.done b sl true) := by
    intro i b sl h1 h2
    unfold tOk at h1
    unfold tPos at h2
    cases hc : s.lanes[i]? with
    | none => rw [hc] at h1; cases h1
    | some l =>
      rw [hc] at h1 h2
      cases l with
      | head p b => cases h1
      | inner p b a v => cases h1
      | done b' sl' ins =>
        simp only [Option.map_some, Option.getD_some, TLane.out] at h1 h2
        cases h2; rw [h1]
  refine ⟨F, ?_, ?_⟩
  · intro b hb
    refine ⟨(h.res.lo b hb).1, (h.res.lo b hb).2, h.cur b hb, fun sl => ⟨?_, ?_⟩⟩
    · rintro ⟨h1, h2⟩
      obtain ⟨i, h3, h4⟩ := h.res.surj b sl hb h1 h2
      exact ⟨i, hdone' i b sl h3 h4⟩
    · rintro ⟨i, hl'⟩
      obtain ⟨h1, h2⟩ := hdone i b sl hl'
      obtain ⟨_, _, h3, h4⟩ := h.res.range i h1
      rw [h2] at h3 h4
      exact ⟨h3, h4⟩
  · intro i k b sl h1 h2
    obtain ⟨a1, a2⟩ := hdone i b sl h1
    obtain ⟨a3, a4⟩ := hdone k b sl h2
    exact h.res.inj i k a1 a3 (by rw [a2, a4])

/-- **C28 (termination and coverage).**  A schedule that has run every program to its end determines the result: the
closing round of `tritonReserve` does nothing after it.  So `tritonReserve` ranges over the outcomes of all complete
executions. -/
theorem triton_complete_schedule (steps starts : List Nat) (active : List Bool) (m : Nat) (sched : List (Nat × Nat))
    (hdone : ∀ i, i < active.length → (tRun T steps m (tInit T starts active) sched).isDone i) :
    tRun T steps m (tRun T steps m (tInit T starts active) sched) (finishSched T m active.length) =
      tRun T steps m (tInit T starts active) sched := by
  apply tRun_done
  intro i hi
  rw [tRun_length] at hi
  exact hdone i (by simpa [tInit] using hi)

/-- **C28 (wait-freedom).**  A program ends within `(max_probe_buckets + 1) * (bucket_size + 3)` of its own steps, whatever
the other programs do in between. -/
theorem triton_wait_free (steps starts : List Nat) (active : List Bool) (m : Nat) (sched : List (Nat × Nat)) (i : Nat)
    (hi : i < active.length) (hn : (m + 1) * (T.bs + 3) ≤ sched.countP fun ic => ic.1 == i) :
    (tRun T steps m (tInit T starts active) sched).isDone i := by
  apply muAt_zero (T := T) (mpb := m)
  · rw [tRun_length]; simpa [tInit] using hi
  · have h1 := tRun_mu_le (T := T) steps m (tInit T starts active) sched i
    have h2 := tInit_mu (T := T) starts active m i
    unfold tFuel at h2
    omega

/-- **C29.**  For every reachable table with at most 32 slots per bucket, every batch and probe limit, the bucket-owner
reservation is safe. -/
theorem pallas_safe (hr : Reachable K H T) (hbs : T.bs ≤ 32) {xs : List α} {starts : List Nat} {active : List Bool}
    (hs : StartsOk H T xs starts active) (hl : starts.length = active.length) (mpb : Nat) :
    SafeReservation H T xs active (pallasReserve T (xs.map (step H T)) starts active mpb) := by
  have hi := hr.inv
  have h0 := hs.startOk hl
  obtain ⟨F, r, h, _⟩ := pLoop_inv hi hbs h0.2.1 (min mpb T.cap) (pInit_inv hi hbs h0)
  rw [map_bucket] at h
  unfold pallasReserve
  simp only
  generalize pLoop T (xs.map (step H T)) active.length (min mpb T.cap) _ = s at h
  exact RInv.safe hi.toShape h.res (fun b hb => (h.mirror.2.2 b hb).1) (fun b hb => (h.mirror.2.2 b hb).2)

/-- **C22 for the kernels.**  On the GPU and TPU paths with the default probe limit, if the table has room for the distinct
new items of the batch, every selected lane's item ends up stored — under every schedule.  (On the XLA path this is false,
see `parallel_insert_room_false`.) -/
theorem kernel_insert_places_all (hr : Reachable K H T) {be : Backend} (hbe : be.Complete T) (mode : Mode) (xs : List α)
    (filled : List Bool) (key : Option (List K))
    (hroom : (newLanes H T xs (parallelInsert be mode H T xs filled key).unique).length + T.size ≤ T.cap * T.bs)
    (l : Nat) (x : α) (hx : xs[l]? = some x) (hu : (parallelInsert be mode H T xs filled key).unique[l]? = some true) :
    ∃ i, Stored (parallelInsert be mode H T xs filled key).table x i := by
  have hi := hr.inv
  have hsel := dedupe_sel mode H xs filled key
  have hd : (dedupe mode H.toEnc xs filled key).1.getD l false = true := filled_iff.2 hu
  have hext := parallelInsert_ext be hi hsel
  obtain ⟨hps, hgu⟩ := pi_spec be hi hsel
  have hgu := hgu hbe
  have hlt := (List.getElem?_eq_some_iff.1 hx).1
  show ∃ i, Stored (parallelInsertWith be H T xs filled (dedupe mode H.toEnc xs filled key)).table x i
  cases hf : (laneEnd H T x false true).found with
  | true =>
    obtain ⟨b, s, hb, hh⟩ := (laneEnd_found hi x).1.1 hf
    exact ⟨_, (hext.stored hi x _).2 (Or.inl ((stored_iff hi x _).2 ⟨b, s, hb, rfl, hh⟩))⟩
  | false =>
    have hupd : (piUpd H T xs filled (dedupe mode H.toEnc xs filled key)).getD l false = true :=
      (piUpd_iff hsel hx).2 ⟨hd, hf⟩
    cases hok : (piOk H T be xs filled (dedupe mode H.toEnc xs filled key)).getD l false with
    | true =>
      have hn : piNew H T be xs filled (dedupe mode H.toEnc xs filled key) x _ _ := ⟨l, hok, hx, rfl⟩
      exact ⟨_, (hext.stored hi x _).2 (Or.inr ⟨_, _, (hext.new_ok x _ _ hn).1, rfl, hn⟩)⟩
    | false =>
      exfalso
      have hfull := hgu l hupd hok
      have hat := all_taken (H := H) (T := T) (pos := piFin H T be xs filled (dedupe mode H.toEnc xs filled key)) hi
        (getD_true_lt hupd) hupd ?_
      · rw [updLanes_pi (H := H) (T := T) hi hsel] at hat
        have : (newLanes H T xs (dedupe mode H.toEnc xs filled key).1).length + T.size ≤ T.cap * T.bs := hroom
        omega
      · intro b s hb h1 h2
        have hfb : fillOf (piRes H T be xs filled (dedupe mode H.toEnc xs filled key)).1 b = T.bs := hfull b hb
        obtain ⟨y, k, hk1, hk2, hk3⟩ := hext.new_ex b s hb h1 (by
          show s < fillOf (piRes H T be xs filled (dedupe mode H.toEnc xs filled key)).1 b
          rw [hfb]; exact h2)
        refine ⟨k, ?_, ?_, hps.sub k hk1, hk3⟩
        · rintro rfl
          rw [hok] at hk1; cases hk1
        · exact getD_true_lt (hps.sub k hk1)

/-- Non-vacuity: a batch of four lanes racing for two buckets of two slots, under a schedule with a stale read, on the GPU
path; and the same batch on the TPU path. -/
example :
    let T := exec (K := Option Nat) exHasher (build 0 4 2 2 none) [.insert 0]
    let sched := [(0, 0), (1, 0), (2, 0), (1, 0), (3, 1), (0, 0), (3, 0), (2, 0), (2, 0), (3, 0)]
    let r := parallelInsert (K := Option Nat) (.triton 4 sched) .safe exHasher T [4, 8, 12, 1] [true, true, true, true] none
    let r' := parallelInsert (K := Option Nat) (.pallas 4) .safe exHasher T [4, 8, 12, 1] [true, true, true, true] none
    T.cap = 4 ∧ r.inserted = [true, true, true, true] ∧ r.table.size = 5 ∧ r'.inserted = [true, true, true, true] ∧
    r.idx = [3, 1, 4, 2] ∧ r'.idx = [1, 3, 4, 2] ∧ lookup exHasher r.table 12 = (4, true) := by
  decide +kernel

end HashTable
