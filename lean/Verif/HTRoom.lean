import Verif.HTProps

/-! # C22: does `parallel_insert` place every new item when there is room? -/

namespace HashTable

open Jax SortGroup Dedupe

variable {α : Type u} [DecidableEq α] {H : Hasher α} {T : Table α}

/-- Number of updatable lanes. -/
def updLanes (upd : List Bool) : List Nat := (List.range upd.length).filter fun i => upd.getD i false

theorem mem_updLanes {upd : List Bool} {i : Nat} : i ∈ updLanes upd ↔ i < upd.length ∧ upd.getD i false = true := by
  simp [updLanes]

theorem free_length (hi : Inv H T) :
    ((List.range (T.cap * T.bs)).filter fun i => !decide (Occupied T i)).length = T.cap * T.bs - T.size := by
  have h1 := occupiedCount_eq hi
  unfold occupiedCount at h1
  have h2 := List.length_eq_countP_add_countP (fun i => decide (Occupied T i)) (l := List.range (T.cap * T.bs))
  rw [List.countP_eq_length_filter, List.countP_eq_length_filter, List.length_range, h1] at h2
  have e : (List.range (T.cap * T.bs)).filter (fun i => !decide (Occupied T i)) =
      (List.range (T.cap * T.bs)).filter (fun a => decide ¬ (decide (Occupied T a) = true)) := by
    apply List.filter_congr
    intro a _; simp
  rw [e]; omega

/-- If every free slot is taken by a lane other than `i`, there are more updatable lanes than free slots. -/
theorem all_taken {upd : List Bool} {pos : List Pos} (hi : Inv H T) {i : Nat} (hin : i < upd.length)
    (hu : upd.getD i false = true)
    (h : ∀ b s, b < T.cap → fillOf T b ≤ s → s < T.bs →
      ∃ k, k ≠ i ∧ k < upd.length ∧ upd.getD k false = true ∧ pos.getD k default = ⟨b, s⟩) :
    T.cap * T.bs - T.size < (updLanes upd).length := by
  have hsh := hi.toShape
  have hm : i ∈ updLanes upd := mem_updLanes.2 ⟨hin, hu⟩
  have := nodup_subset_length
    (l₁ := (List.range (T.cap * T.bs)).filter fun i => !decide (Occupied T i))
    (l₂ := ((updLanes upd).erase i).map fun k => (pos.getD k default).bucket * T.bs + (pos.getD k default).slot)
    (List.Pairwise.filter _ List.nodup_range) (by
      intro q hq
      rw [List.mem_filter] at hq
      have h1 := List.mem_range.1 hq.1
      have h2 : ¬ Occupied T q := by simpa using hq.2
      have hb : q / T.bs < T.cap := by apply Nat.div_lt_of_lt_mul; rw [Nat.mul_comm]; exact h1
      have hlo : fillOf T (q / T.bs) ≤ q % T.bs := by
        apply Classical.byContradiction
        intro hc
        exact h2 ⟨h1, by show _ < fillOf T _; omega⟩
      obtain ⟨k, k1, k2, k3, k4⟩ := h _ _ hb hlo (Nat.mod_lt _ hsh.bs_pos)
      rw [List.mem_map]
      refine ⟨k, (List.mem_erase_of_ne k1).2 (mem_updLanes.2 ⟨k2, k3⟩), ?_⟩
      rw [k4]
      simp only
      rw [Nat.mul_comm]; exact Nat.div_add_mod q T.bs)
  rw [free_length hi, List.length_map, List.length_erase_of_mem hm] at this
  have := List.length_pos_of_mem hm
  omega

/-- Remaining moves of a lane at path index `j`, slot `s`. -/
def movesLeft (T : Table α) (j s : Nat) : Nat := (T.cap - j) * (T.bs + 1) - s

/-- Lane invariant with explicit path indices below `_capacity`. -/
def PlaceInvJ (H : Hasher α) (T : Table α) (xs : List α) (upd : List Bool) (pos : List Pos) (js : Nat → Nat) : Prop :=
  ∀ i x, i < upd.length → upd.getD i false = true → xs[i]? = some x →
    js i < T.cap ∧ LaneAt H T upd pos x (pos.getD i default) (js i)

/-- Total remaining moves. -/
def totalMoves (T : Table α) (upd : List Bool) (pos : List Pos) (js : Nat → Nat) : Nat :=
  ((updLanes upd).map fun i => movesLeft T (js i) (pos.getD i default).slot).sum

theorem sum_le_of_le {f g : Nat → Nat} (L : List Nat) (h : ∀ i ∈ L, f i ≤ g i) : (L.map f).sum ≤ (L.map g).sum := by
  induction L with
  | nil => simp
  | cons a L ih =>
    have := ih (fun i hi => h i (by simp [hi]))
    have := h a (by simp)
    simp only [List.map_cons, List.sum_cons]; omega

theorem sum_lt_of_lt {f g : Nat → Nat} (L : List Nat) (h : ∀ i ∈ L, f i ≤ g i) {k : Nat} (hk : k ∈ L) (hlt : f k < g k) :
    (L.map f).sum < (L.map g).sum := by
  induction L with
  | nil => cases hk
  | cons a L ih =>
    simp only [List.map_cons, List.sum_cons]
    have ha := h a (by simp)
    rcases List.mem_cons.1 hk with rfl | hk'
    · have := sum_le_of_le L (fun i hi => h i (by simp [hi])); omega
    · have := ih (fun i hi => h i (by simp [hi])) hk'; omega

/-- One round with a pending lane: the invariant is kept and the total number of remaining moves decreases. -/
theorem round_progress {xs : List α} {upd : List Bool} {pos : List Pos} {js : Nat → Nat} (hi : Inv H T)
    (hp : PlaceInv H T xs upd pos) (hj : PlaceInvJ H T xs upd pos js) (hl : xs.length = upd.length)
    (hroom : (updLanes upd).length ≤ T.cap * T.bs - T.size) :
    ∃ js', PlaceInvJ H T xs upd (placeRound T (xs.map (step H T)) upd pos) js' ∧
      ((pendings T upd pos).any id = true →
        totalMoves T upd (placeRound T (xs.map (step H T)) upd pos) js' < totalMoves T upd pos js) := by
  have hsh := hi.toShape
  refine ⟨fun i => if (pendings T upd pos).getD i false = true ∧ T.bs - 1 ≤ (pos.getD i default).slot then js i + 1
    else js i, ?_, ?_⟩
  · intro i x hin hu hx
    obtain ⟨h1, h2⟩ := hj i x hin hu hx
    refine ⟨?_, placeRound_lane hi hp hl hin hu hx h2⟩
    simp only
    split
    · rename_i hc
      apply Classical.byContradiction
      intro hge
      have hjc : js i + 1 = T.cap := by omega
      have hbad := all_taken hi hin hu (pos := pos) (by
        intro b s hb hlo hs
        -- every free slot has a winner; lane `i` is not a winner
        have hocc : Occ T upd pos b s := by
          obtain ⟨p, hp1, hp2⟩ := hsh.path_surj H x hb
          rcases Nat.lt_or_ge p (js i) with h | h
          · rw [← hp2] at hlo ⊢; exact h2.held p h s hlo hs
          · have : p = js i := by omega
            rw [this, ← h2.bucket] at hp2
            rw [← hp2] at hlo ⊢
            rcases Nat.lt_or_ge s (pos.getD i default).slot with h3 | h3
            · exact h2.passed s hlo h3
            · have hse : (pos.getD i default).slot = s := by have := hc.2; omega
              exact ⟨hs, i, hin, hu, by cases hpi : pos.getD i default; rw [hpi] at hse; simp only at hse; rw [hse]⟩
        obtain ⟨k, hk, hw, he⟩ := occ_winner hi hp hl hocc
        refine ⟨k, ?_, hk, ((winners_iff hi hp hl hk).1 hw).1, he⟩
        intro hki
        subst hki
        have := winner_not_pending hi hp hl hk hw
        rw [hc.1] at this; cases this)
      omega
    · exact h1
  · intro hany
    obtain ⟨k, hk1, hk2⟩ : ∃ k, k < upd.length ∧ (pendings T upd pos).getD k false = true := by
      rw [List.any_eq_true] at hany
      obtain ⟨v, hv, hv'⟩ := hany
      obtain ⟨k, hk⟩ := List.getElem?_of_mem hv
      have : v = true := hv'
      subst this
      refine ⟨k, ?_, by rw [List.getD_eq_getElem?_getD, hk]; rfl⟩
      have := (List.getElem?_eq_some_iff.1 hk).1
      simpa [pendings] using this
    have hxs : ∀ i, i < upd.length → ∃ x, xs[i]? = some x := fun i h => ⟨_, List.getElem?_eq_getElem (by omega)⟩
    -- a pending lane has strictly fewer moves left, the others are unchanged
    have hpend : ∀ i, i < upd.length → (pendings T upd pos).getD i false = true →
        movesLeft T (if (pendings T upd pos).getD i false = true ∧ T.bs - 1 ≤ (pos.getD i default).slot then js i + 1
          else js i) ((placeRound T (xs.map (step H T)) upd pos).getD i default).slot <
        movesLeft T (js i) (pos.getD i default).slot := by
      intro i hin hpi
      have hu := ((pendings_iff hin).1 hpi).1
      obtain ⟨x, hx⟩ := hxs i hin
      obtain ⟨h1, h2⟩ := hj i x hin hu hx
      have hhi := h2.hi
      have e : (T.cap - js i) * (T.bs + 1) = (T.cap - (js i + 1)) * (T.bs + 1) + (T.bs + 1) := by
        have : T.cap - js i = (T.cap - (js i + 1)) + 1 := by omega
        rw [this, Nat.add_mul]; omega
      rw [placeRound_getD hin, if_pos hpi]
      unfold movesLeft advance
      by_cases hlast : T.bs - 1 ≤ (pos.getD i default).slot
      · rw [if_pos ⟨hpi, hlast⟩, if_pos hlast]
        simp only
        omega
      · rw [if_neg (fun h => hlast h.2), if_neg hlast]
        have h256 : ((pos.getD i default).slot + 1) % 256 = (pos.getD i default).slot + 1 := by
          have := hsh.bs_le; omega
        simp only [h256]
        omega
    apply sum_lt_of_lt (k := k)
    · intro i hm
      obtain ⟨hin, hu⟩ := mem_updLanes.1 hm
      by_cases hpi : (pendings T upd pos).getD i false = true
      · exact Nat.le_of_lt (hpend i hin hpi)
      · simp only
        rw [if_neg (fun h => hpi h.1), placeRound_getD hin, if_neg hpi]
        exact Nat.le_refl _
    · exact mem_updLanes.2 ⟨hk1, ((pendings_iff hk1).1 hk2).1⟩
    · exact hpend k hk1 hk2

/-- With enough rounds nothing is left pending. -/
theorem placeLoop_done {xs : List α} {upd : List Bool} {pos : List Pos} {js : Nat → Nat} (hi : Inv H T)
    (hp : PlaceInv H T xs upd pos) (hj : PlaceInvJ H T xs upd pos js) (hl : xs.length = upd.length)
    (hroom : (updLanes upd).length ≤ T.cap * T.bs - T.size) (rounds : Nat) (hr : totalMoves T upd pos js ≤ rounds) :
    (pendings T upd (placeLoop T (xs.map (step H T)) upd rounds pos)).any id = false := by
  induction rounds generalizing pos js with
  | zero =>
    simp only [placeLoop]
    cases hc : (pendings T upd pos).any id with
    | false => rfl
    | true =>
      obtain ⟨js', _, h2⟩ := round_progress hi hp hj hl hroom
      have := h2 hc; omega
  | succ r ih =>
    simp only [placeLoop]
    cases hc : (pendings T upd pos).any id with
    | false => simpa using hc
    | true =>
      simp only [if_true]
      obtain ⟨js', h1, h2⟩ := round_progress hi hp hj hl hroom
      have := h2 hc
      exact ih (placeRound_inv hi hp hl) h1 (by unfold placeRound at this; omega)

/-! ## Lockstep case: no bucket overflows -/

/-- Updatable lanes with home bucket `b`. -/
def homeLanes (upd : List Bool) (home : Nat → Nat) (b : Nat) : List Nat :=
  (updLanes upd).filter fun i => decide (home i = b)

/-- After `r` rounds every lane is in its home bucket, `r` slots further if it is still pending. -/
def LockInv (T : Table α) (upd : List Bool) (home : Nat → Nat) (r : Nat) (pos : List Pos) : Prop :=
  ∀ i, i < upd.length → upd.getD i false = true → (pos.getD i default).bucket = home i ∧
    (pos.getD i default).slot < T.bs ∧ (pos.getD i default).slot ≤ fillOf T (home i) + r ∧
    ((pendings T upd pos).getD i false = true → (pos.getD i default).slot = fillOf T (home i) + r)

theorem lock_count {xs : List α} {upd : List Bool} {home : Nat → Nat} {r : Nat} {pos : List Pos} (hi : Inv H T)
    (hp : PlaceInv H T xs upd pos) (hl : xs.length = upd.length) (hk : LockInv T upd home r pos) {i : Nat}
    (hin : i < upd.length) (hpi : (pendings T upd pos).getD i false = true) :
    r + 2 ≤ (homeLanes upd home (home i)).length := by
  have hu := ((pendings_iff hin).1 hpi).1
  obtain ⟨h1, h2, h3, h4⟩ := hk i hin hu
  have h4' := h4 hpi
  obtain ⟨x, hx⟩ : ∃ x, xs[i]? = some x := ⟨_, List.getElem?_eq_getElem (by omega)⟩
  obtain ⟨j, hj⟩ := hp.2 i x hin hu hx
  have hm : i ∈ homeLanes upd home (home i) := by
    unfold homeLanes; rw [List.mem_filter]; exact ⟨mem_updLanes.2 ⟨hin, hu⟩, by simp⟩
  have := nodup_subset_length (l₁ := List.range' (fillOf T (home i)) (r + 1))
    (l₂ := ((homeLanes upd home (home i)).erase i).map fun k => (pos.getD k default).slot) List.nodup_range' (by
      intro s hs
      rw [List.mem_range'_1] at hs
      have hocc : Occ T upd pos (home i) s := by
        rw [← h1]
        rcases Nat.lt_or_ge s (pos.getD i default).slot with h | h
        · exact hj.passed s (by rw [h1]; exact hs.1) h
        · have he : (pos.getD i default).slot = s := by omega
          exact ⟨by omega, i, hin, hu, by cases hq : pos.getD i default; rw [hq] at he; simp only at he; rw [he]⟩
      obtain ⟨k, hk1, hk2, hk3⟩ := occ_winner hi hp hl hocc
      have hku := ((winners_iff hi hp hl hk1).1 hk2).1
      rw [List.mem_map]
      refine ⟨k, ?_, by rw [hk3]⟩
      have hne : k ≠ i := by
        intro he; subst he
        have := winner_not_pending hi hp hl hk1 hk2
        rw [hpi] at this; cases this
      rw [List.mem_erase_of_ne hne]
      unfold homeLanes
      rw [List.mem_filter]
      refine ⟨mem_updLanes.2 ⟨hk1, hku⟩, ?_⟩
      have := (hk k hk1 hku).1
      rw [hk3] at this
      simp only at this
      simp [this])
  rw [List.length_range', List.length_map, List.length_erase_of_mem hm] at this
  have := List.length_pos_of_mem hm
  omega

theorem lock_round {xs : List α} {upd : List Bool} {home : Nat → Nat} {r : Nat} {pos : List Pos} (hi : Inv H T)
    (hp : PlaceInv H T xs upd pos) (hl : xs.length = upd.length) (hk : LockInv T upd home r pos)
    (hcount : ∀ i, i < upd.length → upd.getD i false = true →
      fillOf T (home i) + (homeLanes upd home (home i)).length ≤ T.bs) :
    LockInv T upd home (r + 1) (placeRound T (xs.map (step H T)) upd pos) := by
  have hsh := hi.toShape
  have hp' := placeRound_inv hi hp hl
  have hadv : ∀ i, i < upd.length → (pendings T upd pos).getD i false = true →
      (placeRound T (xs.map (step H T)) upd pos).getD i default = ⟨home i, fillOf T (home i) + r + 1⟩ ∧
      fillOf T (home i) + r + 1 < T.bs := by
    intro i hin hpi
    have hu := ((pendings_iff hin).1 hpi).1
    obtain ⟨h1, h2, h3, h4⟩ := hk i hin hu
    have h4' := h4 hpi
    have hc := lock_count hi hp hl hk hin hpi
    have hc2 := hcount i hin hu
    rw [placeRound_getD hin, if_pos hpi]
    unfold advance
    rw [if_neg (by omega)]
    have : ((pos.getD i default).slot + 1) % 256 = (pos.getD i default).slot + 1 := by
      have := hsh.bs_le; omega
    rw [this, h1, h4']
    exact ⟨rfl, by omega⟩
  intro i hin hu
  obtain ⟨h1, h2, h3, h4⟩ := hk i hin hu
  by_cases hpi : (pendings T upd pos).getD i false = true
  · obtain ⟨e, hlt⟩ := hadv i hin hpi
    rw [e]
    exact ⟨rfl, hlt, Nat.le_refl _, fun _ => rfl⟩
  · have e : (placeRound T (xs.map (step H T)) upd pos).getD i default = pos.getD i default := by
      rw [placeRound_getD hin, if_neg hpi]
    rw [e]
    refine ⟨h1, h2, by omega, fun hpi' => ?_⟩
    exfalso
    -- a winner stays a winner: nobody arrives at its slot
    have hw : (winners T upd pos).getD i false = true := by
      cases hc : (winners T upd pos).getD i false with
      | true => rfl
      | false => exact absurd ((pendings_iff hin).2 ⟨hu, Or.inl hc⟩) hpi
    have hw' := (winners_iff hi hp hl hin).1 hw
    have : (winners T upd (placeRound T (xs.map (step H T)) upd pos)).getD i false = true := by
      rw [winners_iff hi hp' hl hin, e]
      refine ⟨hu, h2, fun k hk1 hku hke => ?_⟩
      by_cases hpk : (pendings T upd pos).getD k false = true
      · obtain ⟨ek, _⟩ := hadv k hk1 hpk
        rw [ek] at hke
        have hb : home k = home i := by rw [← h1, ← hke]
        have hs : fillOf T (home k) + r + 1 = (pos.getD i default).slot := by rw [← hke]
        rw [hb] at hs; omega
      · rw [placeRound_getD hk1, if_neg hpk] at hke
        exact hw'.2.2 k hk1 hku hke
    have := winner_not_pending hi hp' hl hin this
    rw [hpi'] at this; cases this

theorem lock_done {xs : List α} {upd : List Bool} {home : Nat → Nat} {r : Nat} {pos : List Pos} (hi : Inv H T)
    (hp : PlaceInv H T xs upd pos) (hl : xs.length = upd.length) (hk : LockInv T upd home r pos)
    (hcount : ∀ i, i < upd.length → upd.getD i false = true →
      fillOf T (home i) + (homeLanes upd home (home i)).length ≤ T.bs) (rounds : Nat) (hr : T.bs ≤ r + rounds) :
    (pendings T upd (placeLoop T (xs.map (step H T)) upd rounds pos)).any id = false := by
  induction rounds generalizing pos r with
  | zero =>
    simp only [placeLoop]
    cases hc : (pendings T upd pos).any id with
    | false => rfl
    | true =>
      rw [List.any_eq_true] at hc
      obtain ⟨v, hv, hv'⟩ := hc
      obtain ⟨i, hi'⟩ := List.getElem?_of_mem hv
      have hv'' : v = true := hv'
      subst hv''
      have hin : i < upd.length := by
        have := (List.getElem?_eq_some_iff.1 hi').1; simpa [pendings] using this
      have hpi : (pendings T upd pos).getD i false = true := by rw [List.getD_eq_getElem?_getD, hi']; rfl
      have h1 := lock_count hi hp hl hk hin hpi
      have h2 := hcount i hin ((pendings_iff hin).1 hpi).1
      omega
  | succ n ih =>
    simp only [placeLoop]
    cases hc : (pendings T upd pos).any id with
    | false => simpa using hc
    | true =>
      simp only [if_true]
      exact ih (placeRound_inv hi hp hl) (lock_round hi hp hl hk hcount) (by omega)

/-! ## The batch -/

/-- Lanes selected by de-duplication whose item `lookup` does not find: the distinct new items of the batch. -/
def newLanes (H : Hasher α) (T : Table α) (xs : List α) (unique : List Bool) : List Nat :=
  (List.range xs.length).filter fun l => unique.getD l false && (xs[l]?.map fun x => !(lookup H T x).2).getD false

theorem laneEnd_found_lookup (hi : Inv H T) (x : α) : (laneEnd H T x false true).found = (lookup H T x).2 := by
  have h1 := (laneEnd_found hi x).1
  have h2 := (lookupBucket_found hi x).1
  have : (laneEnd H T x false true).found = true ↔ (lookup H T x).2 = true := by rw [h1]; exact h2.symm
  cases hc : (laneEnd H T x false true).found <;> cases hd : (lookup H T x).2 <;> simp_all

theorem updLanes_pi {xs : List α} {filled : List Bool} {dd : List Bool × List Nat} (hi : Inv H T)
    (hsel : Sel xs filled dd) : updLanes (piUpd H T xs filled dd) = newLanes H T xs dd.1 := by
  unfold updLanes newLanes
  have e : (piUpd H T xs filled dd).length = xs.length := by simp [piUpd]
  rw [e]
  apply List.filter_congr
  intro l hl
  have hlt := List.mem_range.1 hl
  have hx : xs[l]? = some xs[l] := List.getElem?_eq_getElem hlt
  have h := piUpd_iff (H := H) (T := T) hsel hx
  rw [laneEnd_found_lookup hi] at h
  rw [hx]
  cases hc : (piUpd H T xs filled dd).getD l false <;> cases hd : dd.1.getD l false <;>
    cases hf : (lookup H T xs[l]).2 <;> simp_all

theorem stored_of_no_pending {xs : List α} {filled : List Bool} {dd : List Bool × List Nat} (hi : Inv H T)
    (hsel : Sel xs filled dd)
    (hno : (pendings T (piUpd H T xs filled dd) (piFin H T .xla xs filled dd)).any id = false)
    (l : Nat) (x : α) (hx : xs[l]? = some x) (hd : dd.1.getD l false = true) :
    ∃ i, Stored (parallelInsertWith .xla H T xs filled dd).table x i := by
  have hext := parallelInsert_ext .xla hi hsel
  have hl : xs.length = (piUpd H T xs filled dd).length := by simp [piUpd]
  have hlt := (List.getElem?_eq_some_iff.1 hx).1
  have hp : PlaceInv H T xs (piUpd H T xs filled dd) (piFin H T .xla xs filled dd) :=
    placeLoop_inv hi (pi_placeInv hi hsel) hl T.maxProbes
  cases hf : (laneEnd H T x false true).found with
  | true =>
    obtain ⟨b, s, hb, hh⟩ := (laneEnd_found hi x).1.1 hf
    exact ⟨_, (hext.stored hi x _).2 (Or.inl ((stored_iff hi x _).2 ⟨b, s, hb, rfl, hh⟩))⟩
  | false =>
    have hu : (piUpd H T xs filled dd).getD l false = true := (piUpd_iff hsel hx).2 ⟨hd, hf⟩
    have hw : (winners T (piUpd H T xs filled dd) (piFin H T .xla xs filled dd)).getD l false = true := by
      cases hc : (winners T (piUpd H T xs filled dd) (piFin H T .xla xs filled dd)).getD l false with
      | true => rfl
      | false =>
        exfalso
        have hpd := (pendings_iff (T := T) (by omega)).2 ⟨hu, Or.inl hc⟩
        rw [List.any_eq_false] at hno
        have hm := getD_true_lt hpd
        exact hno true (List.mem_of_getElem? (i := l) (by rw [← hpd]; exact getElem?_of_lt false hm)) rfl
    have hok : (piOk H T .xla xs filled dd).getD l false = true := (finalOk_iff hi hp hl l).2 ⟨by omega, hw⟩
    have hn : piNew H T .xla xs filled dd x _ _ := ⟨l, hok, hx, rfl⟩
    exact ⟨_, (hext.stored hi x _).2 (Or.inr ⟨_, _, (hext.new_ok x _ _ hn).1, rfl, hn⟩)⟩

theorem sum_const_le (f : Nat → Nat) (c : Nat) (L : List Nat) (h : ∀ i ∈ L, f i ≤ c) : (L.map f).sum ≤ L.length * c := by
  induction L with
  | nil => simp
  | cons a L ih =>
    have := ih (fun i hi => h i (by simp [hi]))
    have := h a (by simp)
    simp only [List.map_cons, List.sum_cons, List.length_cons, Nat.add_mul]; omega

/-- The position from which an updatable lane starts is the first free slot of the bucket that `lookup` returns. -/
theorem piPos_home {xs : List α} {filled : List Bool} {dd : List Bool × List Nat} (hi : Inv H T) (hsel : Sel xs filled dd)
    (hnf : ∃ i, i < T.cap * T.bs ∧ ¬ Occupied T i) :
    ∀ i y, (piUpd H T xs filled dd).getD i false = true → xs[i]? = some y →
      ∃ b, b < T.cap ∧ fillOf T b < T.bs ∧ (piPos H T xs filled dd).getD i default = ⟨b, fillOf T b⟩ ∧
        (lookup H T y).1 / T.bs = b := by
  have hsh := hi.toShape
  intro i y hui hy
  have hil := (List.getElem?_eq_some_iff.1 hy).1
  obtain ⟨hdi, hfi⟩ := (piUpd_iff hsel hy).1 hui
  obtain ⟨j, hj1, hj2, hj3⟩ := laneEnd_absent hi y hfi
  have hfl : (lookupBucket H T y).2 = false := by
    have := laneEnd_found_lookup hi y; rw [hfi] at this; exact this.symm
  have hpp := piPos_getD (H := H) (T := T) xs filled dd hy
  rw [hdi, hsel.filled i hil hdi] at hpp
  simp only [Bool.not_true] at hpp
  rcases lookupBucket_absent hi y hfl with ⟨j', hj', hfull', hlt', hres⟩ | ⟨hall, _, _⟩
  · have : j = j' ∨ fillOf T (path H T y j) = T.bs ∨ True := Or.inr (Or.inr trivial)
    by_cases hjj : path H T y j = path H T y j'
    · refine ⟨path H T y j', hsh.path_lt' H y j', hlt', ?_, ?_⟩
      · rw [hpp, hj2, hj3, hjj]
      · show flat T (lookupBucket H T y).1.1 (lookupBucket H T y).1.2 / T.bs = _
        rw [hres, hsh.flat_eq (hsh.path_lt' H y j') (by omega)]
        exact (divmod_flat hlt').1
    · exfalso
      -- `laneEnd` stops at the first non-full bucket as well
      obtain ⟨j2, hskip, hout⟩ := laneEnd_spec hi y
      have hb2 : (laneEnd H T y false true).bucket = path H T y j2 := by
        clear hj2 hj3 hpp
        generalize laneEnd H T y false true = le at hout ⊢
        cases hout <;> rfl
      have hj2' : j2 ≤ j' := by
        apply Classical.byContradiction
        intro hc
        have := (hskip j' (by omega)).1; omega
      have hfj2 : fillOf T (path H T y j2) < T.bs ∨ T.maxProbes ≤ (j2 + 1) * T.bs := by
        generalize hle : laneEnd H T y false true = le at hout hfi
        cases hout with
        | found s p hs => cases hfi
        | absent p hlt hno => exact Or.inl hlt
        | limit p hlim hsk => exact Or.inr hlim
      rcases Nat.lt_or_ge j2 j' with h | h
      · have h1 := hfull' j2 h
        rcases hfj2 with h2 | h2
        · omega
        · have := hsh.probes
          have : T.cap * T.bs ≤ (j2 + 1) * T.bs := by omega
          have := Nat.le_of_mul_le_mul_right this hsh.bs_pos
          omega
      · have : j2 = j' := by omega
        apply hjj; rw [← hj2, hb2, this]
  · obtain ⟨q, hq1, hq2⟩ := hnf
    exfalso
    apply hq2
    have hb : q / T.bs < T.cap := by apply Nat.div_lt_of_lt_mul; rw [Nat.mul_comm]; exact hq1
    refine ⟨hq1, ?_⟩
    show _ < fillOf T (q / T.bs)
    rw [hall _ hb]; exact Nat.mod_lt _ hsh.bs_pos

variable {K : Type v} [KeyTop K]

/-- **C22, partial (1).**  If there is room for the distinct new items of the batch and `max_probes` is at least
`(number of new items) * _capacity * (bucket_size + 1)`, every selected lane's item ends up stored.  (With the default
`max_probes = _capacity * bucket_size` the claim is false, see `parallel_insert_room_false`.) -/
theorem parallel_insert_places_all_partial (hr : Reachable K H T) (mode : Mode) (xs : List α) (filled : List Bool)
    (key : Option (List K))
    (hroom : (newLanes H T xs (parallelInsert .xla mode H T xs filled key).unique).length + T.size ≤ T.cap * T.bs)
    (hrounds : (newLanes H T xs (parallelInsert .xla mode H T xs filled key).unique).length * (T.cap * (T.bs + 1)) ≤ T.maxProbes)
    (l : Nat) (x : α) (hx : xs[l]? = some x) (hu : (parallelInsert .xla mode H T xs filled key).unique[l]? = some true) :
    ∃ i, Stored (parallelInsert .xla mode H T xs filled key).table x i := by
  have hi := hr.inv
  have hsel := dedupe_sel mode H xs filled key
  have hd : (dedupe mode H.toEnc xs filled key).1.getD l false = true := filled_iff.2 hu
  refine stored_of_no_pending hi hsel ?_ l x hx hd
  have hlen := updLanes_pi (H := H) (T := T) hi hsel
  have hl : xs.length = (piUpd H T xs filled (dedupe mode H.toEnc xs filled key)).length := by simp [piUpd]
  have hroom' : (updLanes (piUpd H T xs filled (dedupe mode H.toEnc xs filled key))).length ≤ T.cap * T.bs - T.size := by
    rw [hlen]
    have : (newLanes H T xs (dedupe mode H.toEnc xs filled key).1).length + T.size ≤ T.cap * T.bs := hroom
    omega
  have hp := pi_placeInv (H := H) (T := T) hi hsel
  -- path indices below the capacity
  have hex : ∀ i, ∃ j, ∀ y, i < (piUpd H T xs filled (dedupe mode H.toEnc xs filled key)).length →
      (piUpd H T xs filled (dedupe mode H.toEnc xs filled key)).getD i false = true → xs[i]? = some y →
      j < T.cap ∧ LaneAt H T (piUpd H T xs filled (dedupe mode H.toEnc xs filled key))
        (piPos H T xs filled (dedupe mode H.toEnc xs filled key)) y
        ((piPos H T xs filled (dedupe mode H.toEnc xs filled key)).getD i default) j := by
    intro i
    by_cases hc : i < (piUpd H T xs filled (dedupe mode H.toEnc xs filled key)).length ∧
      (piUpd H T xs filled (dedupe mode H.toEnc xs filled key)).getD i false = true
    · obtain ⟨y, hy⟩ : ∃ y, xs[i]? = some y := ⟨_, List.getElem?_eq_getElem (by omega)⟩
      obtain ⟨j, hj⟩ := hp.2 i y hc.1 hc.2 hy
      by_cases hjc : j < T.cap
      · exact ⟨j, fun y' _ _ hy' => by rw [hy] at hy'; cases hy'; exact ⟨hjc, hj⟩⟩
      · obtain ⟨p, hp1, hp2⟩ := hi.toShape.path_surj H y (hi.toShape.path_lt' H y j)
        refine ⟨p, fun y' _ _ hy' => ?_⟩
        rw [hy] at hy'; cases hy'
        exact ⟨hp1, by rw [hp2]; exact hj.bucket, hj.lo, hj.hi, fun l' hl' => hj.held l' (by omega), hj.passed⟩
    · exact ⟨0, fun y h1 h2 _ => absurd ⟨h1, h2⟩ hc⟩
  obtain ⟨js, hjs⟩ := Classical.axiomOfChoice hex
  refine placeLoop_done hi hp (js := js) (fun i y h1 h2 h3 => hjs i y h1 h2 h3) hl hroom' _ ?_
  refine Nat.le_trans (sum_const_le _ (T.cap * (T.bs + 1)) _ ?_) (by rw [hlen]; exact hrounds)
  intro i _
  unfold movesLeft
  have : (T.cap - js i) * (T.bs + 1) ≤ T.cap * (T.bs + 1) := Nat.mul_le_mul_right _ (by omega)
  omega

/-- **C22, partial (2).**  With any allowed `max_probes` (in particular the default): if, for every bucket, the new items
whose first non-full bucket it is fit into it, every selected lane's item ends up stored. -/
theorem parallel_insert_no_overflow_partial (hr : Reachable K H T) (mode : Mode) (xs : List α) (filled : List Bool)
    (key : Option (List K))
    (hfit : ∀ b, b < T.cap → T.fill.getD b 0 +
      ((newLanes H T xs (parallelInsert .xla mode H T xs filled key).unique).filter fun l =>
        (xs[l]?.map fun x => decide ((lookup H T x).1 / T.bs = b)).getD false).length ≤ T.bs)
    (hnf : ∃ i, i < T.cap * T.bs ∧ ¬ Occupied T i)
    (l : Nat) (x : α) (hx : xs[l]? = some x) (hu : (parallelInsert .xla mode H T xs filled key).unique[l]? = some true) :
    ∃ i, Stored (parallelInsert .xla mode H T xs filled key).table x i := by
  have hi := hr.inv
  have hsh := hi.toShape
  have hsel := dedupe_sel mode H xs filled key
  have hd : (dedupe mode H.toEnc xs filled key).1.getD l false = true := filled_iff.2 hu
  refine stored_of_no_pending hi hsel ?_ l x hx hd
  have hlen := updLanes_pi (H := H) (T := T) hi hsel
  have hl : xs.length = (piUpd H T xs filled (dedupe mode H.toEnc xs filled key)).length := by simp [piUpd]
  have hp := pi_placeInv (H := H) (T := T) hi hsel
  generalize hddg : dedupe mode H.toEnc xs filled key = dd at *
  have hfit' : ∀ b, b < T.cap → fillOf T b + ((newLanes H T xs dd.1).filter fun l =>
      (xs[l]?.map fun x => decide ((lookup H T x).1 / T.bs = b)).getD false).length ≤ T.bs := by
    intro b hb
    have := hfit b hb
    unfold parallelInsert at this
    rw [hddg] at this
    exact this
  have hpos := piPos_home (H := H) (T := T) hi hsel hnf
  let home : Nat → Nat := fun i => ((piPos H T xs filled dd).getD i default).bucket
  refine lock_done hi hp hl (home := home) (r := 0) ?_ ?_ T.maxProbes ?_
  · intro i hin hui
    obtain ⟨y, hy⟩ : ∃ y, xs[i]? = some y := ⟨_, List.getElem?_eq_getElem (by omega)⟩
    obtain ⟨b, hb, hlt, he, _⟩ := hpos i y hui hy
    have hh : home i = b := by show ((piPos H T xs filled dd).getD i default).bucket = b; rw [he]
    refine ⟨rfl, ?_, ?_, ?_⟩
    · rw [he]; exact hlt
    · rw [hh, he]; simp
    · intro _; rw [hh, he]; rfl
  · intro i hin hui
    obtain ⟨y, hy⟩ : ∃ y, xs[i]? = some y := ⟨_, List.getElem?_eq_getElem (by omega)⟩
    obtain ⟨b, hb, hlt, he, _⟩ := hpos i y hui hy
    have hh : home i = b := by show ((piPos H T xs filled dd).getD i default).bucket = b; rw [he]
    rw [hh]
    refine Nat.le_trans (Nat.add_le_add_left ?_ _) (hfit' b hb)
    unfold homeLanes
    rw [hlen]
    apply Nat.le_of_eq
    congr 1
    apply List.filter_congr
    intro k hk
    have hkm : k ∈ updLanes (piUpd H T xs filled dd) := by rw [hlen]; exact hk
    obtain ⟨hk1, hk2⟩ := mem_updLanes.1 hkm
    obtain ⟨z, hz⟩ : ∃ z, xs[k]? = some z := ⟨_, List.getElem?_eq_getElem (by omega)⟩
    obtain ⟨b', hb', hlt', he', hl'⟩ := hpos k z hk2 hz
    have hh' : home k = b' := by show ((piPos H T xs filled dd).getD k default).bucket = b'; rw [he']
    rw [hz, hh']
    simp [hl']
  · have := hsh.probes
    have h1 := hsh.cap_pos
    have : 1 * T.bs ≤ T.cap * T.bs := Nat.mul_le_mul_right _ h1
    omega

/-- A hash function on `Nat` with start bucket `x % 8` and step `(x / 8 % 8) ||| 1`. -/
def roomHasher : Hasher Nat where
  wc := 1
  words := fun x => [x]
  h1 := fun x => x % 8
  h2 := fun x => x / 8 % 8
  words_length := by simp
  words_inj := by simp
  mix := fun a _ => a

/-- **C22 is false** with the default `max_probes`: eight one-slot buckets, five stored items, three free slots, and a
batch of three distinct new items of which only two are inserted: the third is displaced after five rounds and the
round budget (8) runs out before it reaches the free bucket. -/
theorem parallel_insert_room_false :
    let T := exec (K := Option Nat) roomHasher (build 0 4 1 2 none) [.insert 1, .insert 2, .insert 3, .insert 4, .insert 6]
    let r := parallelInsert (K := Option Nat) .xla .safe roomHasher T [0, 8, 29] [true, true, true] none
    ValidParams 4 1 2 none ∧ T.size = 5 ∧ T.cap * T.bs = 8 ∧
    newLanes roomHasher T [0, 8, 29] r.unique = [0, 1, 2] ∧ r.inserted = [true, true, false] ∧
    (lookup roomHasher r.table 29).2 = false := by
  refine ⟨⟨by omega, by omega, by decide +kernel, fun m h => by cases h⟩, ?_⟩
  decide +kernel

/-- The hypotheses of the partial theorems are met by non-trivial cases. -/
example :
    let T := exec (K := Option Nat) roomHasher (build 0 8 2 2 none) [.insert 1, .insert 9, .insert 3]
    let r := parallelInsert (K := Option Nat) .xla .safe roomHasher T [0, 8, 2, 0, 17] [true, true, true, true, true] none
    (∀ b, b < T.cap → T.fill.getD b 0 + ((newLanes roomHasher T [0, 8, 2, 0, 17] r.unique).filter fun l =>
        ([0, 8, 2, 0, 17][l]?.map fun x => decide ((lookup roomHasher T x).1 / T.bs = b)).getD false).length ≤ T.bs) ∧
    newLanes roomHasher T [0, 8, 2, 0, 17] r.unique = [0, 1, 2, 4] ∧ r.inserted = [true, true, true, false, true] := by
  decide +kernel

end HashTable
