import Verif.HTLanes

/-! # Batch placement (`_hashtable_parallel_insert_internal`) -/

namespace SortGroup

theorem sameAll_symm {les : List (Nat → Nat → Bool)} {i j : Nat} (h : sameAll les i j = true) :
    sameAll les j i = true := by
  rw [sameAll_iff] at h ⊢
  intro le hle; exact ⟨(h le hle).2, (h le hle).1⟩

/-- In an index-refined sorted order the first element of each group is the smallest index of the group. -/
theorem groupFirst_iff {n : Nat} {les : List (Nat → Nat → Bool)} (h : ∀ le ∈ les, IsOrder le) {sorted : List Nat}
    (hp : sorted.Perm (List.range n)) (hs : sorted.Pairwise (Lex (· < ·) les)) {p i : Nat}
    (hpi : sorted[p]? = some i) :
    (groupStarts (sameAll les) sorted).getD p false = true ↔ ∀ j, j < n → sameAll les j i = true → i ≤ j := by
  have hlen := perm_range_length hp
  have hpl : p < sorted.length := (List.getElem?_eq_some_iff.1 hpi).1
  have hg : ∀ q j, sorted[q]? = some j → sorted.getD q 0 = j := by
    intro q j hq; rw [List.getD_eq_getElem?_getD, hq]; rfl
  have hpw : ∀ q q', q < q' → q' < sorted.length → Lex (· < ·) les (sorted.getD q 0) (sorted.getD q' 0) :=
    fun q q' h1 h2 => pairwise_getD hs h1 h2
  constructor
  · intro hst j hj hsame
    obtain ⟨q, hq, hqj⟩ := perm_range_pos hp hj
    apply Classical.byContradiction
    intro hlt
    rcases Nat.lt_trichotomy q p with hqp | he | hpq
    · obtain ⟨p', rfl⟩ : ∃ p', p = p' + 1 := ⟨p - 1, by omega⟩
      rw [groupStarts_succ _ _ _ hpl] at hst
      have hne : sameAll les (sorted.getD p' 0) (sorted.getD (p' + 1) 0) = false := by simpa using hst
      rcases Nat.lt_or_ge q p' with hqp' | hqp'
      · have := lex_between h (hpw q p' hqp' (by omega)) (hpw p' (p' + 1) (by omega) hpl)
          (by rw [hg q j hqj, hg _ i hpi]; exact hsame)
        rw [this.2] at hne; cases hne
      · have : q = p' := by omega
        subst this
        rw [hg q j hqj, hg _ i hpi, hsame] at hne; cases hne
    · subst he; rw [hpi] at hqj; cases hqj; omega
    · have := hpw p q hpq (by omega)
      rw [hg p i hpi, hg q j hqj] at this
      have : i < j := lex_of_same this (sameAll_symm hsame)
      omega
  · intro hall
    cases p with
    | zero => rfl
    | succ p =>
      rw [groupStarts_succ _ _ _ hpl]
      cases hc : sameAll les (sorted.getD p 0) (sorted.getD (p + 1) 0) with
      | false => rfl
      | true =>
        exfalso
        have hlt : sorted.getD p 0 < n := by
          apply perm_range_lt hp (p := p)
          rw [List.getD_eq_getElem?_getD, List.getElem?_eq_getElem (by omega)]; rfl
        have h1 : sorted.getD p 0 < sorted.getD (p + 1) 0 := lex_of_same (hpw p (p + 1) (by omega) hpl) hc
        rw [hg _ i hpi] at hc h1
        have := hall _ hlt hc
        omega

end SortGroup

namespace HashTable

open Jax SortGroup Dedupe

variable {α : Type u} [DecidableEq α] {H : Hasher α} {T : Table α}

theorem getD_tab_false {n i : Nat} {f : Nat → Bool} : (tab n f).getD i false = true ↔ i < n ∧ f i = true := by
  constructor
  · intro h
    have hi := getD_true_lt h
    rw [tab_length] at hi
    rw [tab_getD _ _ hi] at h
    exact ⟨hi, h⟩
  · rintro ⟨hi, h⟩; rw [tab_getD _ _ hi]; exact h

/-- The winner of each slot is the lowest lane aiming at it. -/
theorem resolve_spec {n : Nat} {flats : List Nat} {active : List Bool}
    (hne : ∀ i, active.getD i false = true → flats.getD i 0 ≠ sentinel) (i : Nat) (hi : i < n) :
    (resolve n flats active).getD i false = true ↔
      active.getD i false = true ∧ ∀ j, j < n → active.getD j false = true → flats.getD j 0 = flats.getD i 0 → i ≤ j := by
  obtain ⟨key, hkey⟩ : ∃ key : Nat → Nat, key = fun i => if active.getD i false then flats.getD i 0 else sentinel :=
    ⟨_, rfl⟩
  have hk : ∀ i, key i = if active.getD i false then flats.getD i 0 else sentinel := by intro i; rw [hkey]
  have e : resolve n flats active = scatterSet (List.replicate n false) (stableSort (leBy key) (List.range n))
      (tab n fun p => (groupStarts (sameAll [leBy key]) (stableSort (leBy key) (List.range n))).getD p false &&
        (key ((stableSort (leBy key) (List.range n)).getD p 0) != sentinel)) := by
    rw [hkey]; rfl
  rw [e]
  clear e
  have hord : ∀ le ∈ [leBy key], IsOrder le := by
    intro le hle; simp only [List.mem_singleton] at hle; subst hle; exact leBy_isOrder key
  have hperm : (stableSort (leBy key) (List.range n)).Perm (List.range n) := stableSort_perm _ _
  have hpw : (stableSort (leBy key) (List.range n)).Pairwise (Lex (· < ·) [leBy key]) :=
    stableSort_refine (leBy_isOrder key).1 (leBy_isOrder key).2 _ List.pairwise_lt_range
  generalize stableSort (leBy key) (List.range n) = sorted at *
  obtain ⟨p, hp, hpi⟩ := perm_range_pos hperm hi
  have hsame : ∀ a b, sameAll [leBy key] a b = true ↔ key a = key b := by
    intro a b; simp [sameAll, leBy]; omega
  have hval : (scatterSet (List.replicate n false) sorted
      (tab n fun p => (groupStarts (sameAll [leBy key]) sorted).getD p false && (key (sorted.getD p 0) != sentinel)))[i]? =
      some ((groupStarts (sameAll [leBy key]) sorted).getD p false && (key i != sentinel)) := by
    apply scatterSet_mem _ _ _ p _ i hpi
    · rw [tab_getElem?, if_pos hp]
      have : sorted.getD p 0 = i := by rw [List.getD_eq_getElem?_getD, hpi]; rfl
      rw [this]
    · intro q hq; exact nodup_getElem?_inj (perm_range_nodup hperm) hq hpi
    · simpa using hi
  rw [List.getD_eq_getElem?_getD, hval]
  simp only [Option.getD_some, Bool.and_eq_true, bne_iff_ne, ne_eq]
  rw [groupFirst_iff hord hperm hpw hpi]
  simp only [hsame]
  constructor
  · rintro ⟨h1, h2⟩
    have hai : active.getD i false = true := by
      cases ha : active.getD i false with
      | true => rfl
      | false => exfalso; apply h2; rw [hk, ha]; rfl
    refine ⟨hai, fun j hj haj he => h1 j hj ?_⟩
    rw [hk, hk, haj, hai]; simpa using he
  · rintro ⟨hai, h1⟩
    refine ⟨fun j hj he => ?_, ?_⟩
    · cases haj : active.getD j false with
      | true =>
        apply h1 j hj haj
        rw [hk, hk, haj, hai] at he; simpa using he
      | false =>
        exfalso
        rw [hk, hk, haj, hai] at he
        exact hne i hai (by simpa using he.symm)
    · rw [hk, hai]; simpa using hne i hai

/-- An active lane at `(b, s)`. -/
def Occ (T : Table α) (upd : List Bool) (pos : List Pos) (b s : Nat) : Prop :=
  s < T.bs ∧ ∃ k, k < upd.length ∧ upd.getD k false = true ∧ pos.getD k default = ⟨b, s⟩

/-- Where lane `i` (item `x`) stands: bucket number `j` of its path; all free slots it passed are taken. -/
structure LaneAt (H : Hasher α) (T : Table α) (upd : List Bool) (pos : List Pos) (x : α) (p : Pos) (j : Nat) : Prop where
  bucket : p.bucket = path H T x j
  lo : fillOf T p.bucket ≤ p.slot
  hi : p.slot ≤ T.bs
  held : ∀ l, l < j → ∀ s, fillOf T (path H T x l) ≤ s → s < T.bs → Occ T upd pos (path H T x l) s
  passed : ∀ s, fillOf T p.bucket ≤ s → s < p.slot → Occ T upd pos p.bucket s

/-- Loop invariant of the placement rounds. -/
def PlaceInv (H : Hasher α) (T : Table α) (xs : List α) (upd : List Bool) (pos : List Pos) : Prop :=
  pos.length = upd.length ∧
  ∀ i x, i < upd.length → upd.getD i false = true → xs[i]? = some x →
    ∃ j, LaneAt H T upd pos x (pos.getD i default) j

theorem getD_map_pos (pos : List Pos) (f : Pos → Nat) (i : Nat) (h : i < pos.length) :
    (pos.map f).getD i 0 = f (pos.getD i default) := by
  rw [List.getD_eq_getElem?_getD, List.getElem?_map, List.getD_eq_getElem?_getD, List.getElem?_eq_getElem h]; rfl

theorem PlaceInv.pos_ok {xs : List α} {upd : List Bool} {pos : List Pos} (hi : Inv H T)
    (hp : PlaceInv H T xs upd pos) (hl : xs.length = upd.length) {i : Nat} (hin : i < upd.length)
    (hu : upd.getD i false = true) :
    (pos.getD i default).bucket < T.cap ∧ (pos.getD i default).slot ≤ T.bs := by
  obtain ⟨x, hx⟩ : ∃ x, xs[i]? = some x := ⟨_, List.getElem?_eq_getElem (by omega)⟩
  obtain ⟨j, hj⟩ := hp.2 i x hin hu hx
  rw [hj.bucket]
  exact ⟨hi.toShape.path_lt' H x j, hj.hi⟩

/-- Winner flags in terms of positions. -/
theorem winners_iff {xs : List α} {upd : List Bool} {pos : List Pos} (hi : Inv H T)
    (hp : PlaceInv H T xs upd pos) (hl : xs.length = upd.length) {i : Nat} (hin : i < upd.length) :
    (winners T upd pos).getD i false = true ↔ upd.getD i false = true ∧ (pos.getD i default).slot < T.bs ∧
      ∀ k, k < upd.length → upd.getD k false = true → pos.getD k default = pos.getD i default → i ≤ k := by
  have hsh := hi.toShape
  have hact : ∀ k, (tab upd.length fun i => upd.getD i false && decide ((pos.getD i default).slot < T.bs)).getD k false
      = true ↔ k < upd.length ∧ upd.getD k false = true ∧ (pos.getD k default).slot < T.bs := by
    intro k; rw [getD_tab_false]; simp
  have hflat : ∀ k, k < upd.length → upd.getD k false = true → (pos.getD k default).slot < T.bs →
      (pos.map fun p => flat T p.bucket p.slot).getD k 0 =
        (pos.getD k default).bucket * T.bs + (pos.getD k default).slot := by
    intro k hk hu hs
    rw [getD_map_pos _ _ _ (by rw [hp.1]; exact hk)]
    exact hsh.flat_eq (hp.pos_ok hi hl hk hu).1 (by omega)
  unfold winners
  rw [resolve_spec _ i hin, hact]
  · constructor
    · rintro ⟨⟨_, h1, h2⟩, h3⟩
      refine ⟨h1, h2, fun k hk hu he => h3 k hk ((hact k).2 ⟨hk, hu, by rw [he]; exact h2⟩) ?_⟩
      rw [hflat k hk hu (by rw [he]; exact h2), hflat i hin h1 h2, he]
    · rintro ⟨h1, h2, h3⟩
      refine ⟨⟨hin, h1, h2⟩, fun k hk ha he => ?_⟩
      obtain ⟨_, hu, hs⟩ := (hact k).1 ha
      rw [hflat k hk hu hs, hflat i hin h1 h2] at he
      obtain ⟨e1, e2⟩ := Shape.flat_inj hs h2 he
      apply h3 k hk hu
      cases hpk : pos.getD k default; cases hpi : pos.getD i default
      rw [hpk, hpi] at e1 e2
      simp only at e1 e2
      rw [e1, e2]
  · intro k ha
    obtain ⟨hk, hu, hs⟩ := (hact k).1 ha
    rw [hflat k hk hu hs]
    have := hsh.flat_bound (hp.pos_ok hi hl hk hu).1 hs
    have := hsh.small
    rw [Nat.add_mul] at this
    unfold sentinel; omega

/-- Every slot an active lane aims at has a winner. -/
theorem occ_winner {xs : List α} {upd : List Bool} {pos : List Pos} (hi : Inv H T)
    (hp : PlaceInv H T xs upd pos) (hl : xs.length = upd.length) {b s : Nat} (ho : Occ T upd pos b s) :
    ∃ k, k < upd.length ∧ (winners T upd pos).getD k false = true ∧ pos.getD k default = ⟨b, s⟩ := by
  obtain ⟨hs, k, hk⟩ := ho
  -- least such lane
  have : ∃ m, (m < upd.length ∧ upd.getD m false = true ∧ pos.getD m default = ⟨b, s⟩) ∧
      ∀ k, (k < upd.length ∧ upd.getD k false = true ∧ pos.getD k default = ⟨b, s⟩) → m ≤ k := by
    induction k using Nat.strongRecOn with
    | _ k ih =>
      by_cases h : ∃ k', k' < k ∧ (k' < upd.length ∧ upd.getD k' false = true ∧ pos.getD k' default = ⟨b, s⟩)
      · obtain ⟨k', hk', h'⟩ := h; exact ih k' hk' h'
      · refine ⟨k, hk, fun k' h' => ?_⟩
        apply Classical.byContradiction
        intro hlt; exact h ⟨k', by omega, h'⟩
  obtain ⟨m, ⟨m1, m2, m3⟩, hmin⟩ := this
  refine ⟨m, m1, ?_, m3⟩
  rw [winners_iff hi hp hl m1]
  refine ⟨m2, by rw [m3]; exact hs, fun k hk hu he => hmin k ⟨hk, hu, by rw [he, m3]⟩⟩

theorem pendings_iff {upd : List Bool} {pos : List Pos} {i : Nat} (hin : i < upd.length) :
    (pendings T upd pos).getD i false = true ↔ upd.getD i false = true ∧
      ((winners T upd pos).getD i false = false ∨ T.bs ≤ (pos.getD i default).slot) := by
  unfold pendings
  rw [getD_tab_false]
  simp only [hin, true_and, Bool.or_eq_true, Bool.and_eq_true, Bool.not_eq_true', decide_eq_false_iff_not, Nat.not_lt]
  constructor
  · rintro (⟨h1, h2⟩ | ⟨h1, h2⟩)
    · exact ⟨h1, Or.inl h2⟩
    · exact ⟨h1, Or.inr h2⟩
  · rintro ⟨h1, h2 | h2⟩
    · exact Or.inl ⟨h1, h2⟩
    · exact Or.inr ⟨h1, h2⟩

theorem winner_not_pending {xs : List α} {upd : List Bool} {pos : List Pos} (hi : Inv H T)
    (hp : PlaceInv H T xs upd pos) (hl : xs.length = upd.length) {i : Nat} (hin : i < upd.length)
    (hw : (winners T upd pos).getD i false = true) : (pendings T upd pos).getD i false = false := by
  cases hc : (pendings T upd pos).getD i false with
  | false => rfl
  | true =>
    have h1 := (pendings_iff hin).1 hc
    have h2 := (winners_iff hi hp hl hin).1 hw
    rcases h1.2 with h | h
    · rw [hw] at h; cases h
    · omega

/-- One round. -/
def placeRound (T : Table α) (steps : List Nat) (upd : List Bool) (pos : List Pos) : List Pos :=
  tab upd.length fun i => if (pendings T upd pos).getD i false then advance T (steps.getD i 0) (pos.getD i default)
    else pos.getD i default

theorem placeRound_getD {steps : List Nat} {upd : List Bool} {pos : List Pos} {i : Nat} (hin : i < upd.length) :
    (placeRound T steps upd pos).getD i default =
      if (pendings T upd pos).getD i false then advance T (steps.getD i 0) (pos.getD i default) else pos.getD i default :=
  tab_getD _ _ hin

/-- Taken slots stay taken. -/
theorem occ_mono {xs : List α} {steps : List Nat} {upd : List Bool} {pos : List Pos} (hi : Inv H T)
    (hp : PlaceInv H T xs upd pos) (hl : xs.length = upd.length) {b s : Nat} (ho : Occ T upd pos b s) :
    Occ T upd (placeRound T steps upd pos) b s := by
  obtain ⟨k, hk, hw, he⟩ := occ_winner hi hp hl ho
  refine ⟨ho.1, k, hk, ((winners_iff hi hp hl hk).1 hw).1, ?_⟩
  rw [placeRound_getD hk, winner_not_pending hi hp hl hk hw]
  simpa using he

/-- One round for one lane, with its path index. -/
theorem placeRound_lane {xs : List α} {upd : List Bool} {pos : List Pos} (hi : Inv H T)
    (hp : PlaceInv H T xs upd pos) (hl : xs.length = upd.length) {i : Nat} {x : α} (hin : i < upd.length)
    (hu : upd.getD i false = true) (hx : xs[i]? = some x) {j : Nat} (hj : LaneAt H T upd pos x (pos.getD i default) j) :
    LaneAt H T upd (placeRound T (xs.map (step H T)) upd pos) x
      ((placeRound T (xs.map (step H T)) upd pos).getD i default)
      (if (pendings T upd pos).getD i false = true ∧ T.bs - 1 ≤ (pos.getD i default).slot then j + 1 else j) := by
  have hsh := hi.toShape
  have hmono : ∀ {b s}, Occ T upd pos b s → Occ T upd (placeRound T (xs.map (step H T)) upd pos) b s :=
    fun h => occ_mono hi hp hl h
  have hb : (pos.getD i default).bucket < T.cap := (hp.pos_ok hi hl hin hu).1
  rw [placeRound_getD hin]
  by_cases hc : (pendings T upd pos).getD i false = true
  · rw [if_pos hc]
    have hst : (xs.map (step H T)).getD i 0 = step H T x := by
      rw [List.getD_eq_getElem?_getD, List.getElem?_map, hx]; rfl
    rw [hst]
    -- if the slot is in range, it has a (different) winner
    have hown : (pos.getD i default).slot < T.bs → Occ T upd pos (pos.getD i default).bucket (pos.getD i default).slot :=
      fun h => ⟨h, i, hin, hu, rfl⟩
    unfold advance
    by_cases hlast : T.bs - 1 ≤ (pos.getD i default).slot
    · rw [if_pos hlast, if_pos ⟨hc, hlast⟩]
      have hnb : next T (pos.getD i default).bucket (step H T x) = path H T x (j + 1) := by rw [hj.bucket]; rfl
      have hb' := hsh.path_lt' H x (j + 1)
      have hlim : limit T (path H T x (j + 1)) = fillOf T (path H T x (j + 1)) := by
        unfold limit; rw [hsh.rd_fill hb']; have := hi.fill_le _ hb'; have := hsh.bs_le; omega
      rw [hnb, hlim]
      refine ⟨rfl, Nat.le_refl _, hi.fill_le _ hb', ?_, ?_⟩
      · intro l hl' s h1 h2
        rcases Nat.lt_or_ge l j with h | h
        · exact hmono (hj.held l h s h1 h2)
        · have : l = j := by omega
          subst this
          rw [← hj.bucket] at h1 ⊢
          rcases Nat.lt_or_ge s (pos.getD i default).slot with h3 | h3
          · exact hmono (hj.passed s h1 h3)
          · have : s = (pos.getD i default).slot := by omega
            rw [this]; exact hmono (hown (by omega))
      · intro s h1 h2
        simp only at h1 h2; omega
    · rw [if_neg hlast, if_neg (fun h => hlast h.2)]
      have h256 : ((pos.getD i default).slot + 1) % 256 = (pos.getD i default).slot + 1 := by
        have := hsh.bs_le; omega
      rw [h256]
      refine ⟨hj.bucket, ?_, ?_, ?_, ?_⟩
      · have := hj.lo; simp only; omega
      · simp only; omega
      · intro l hl' s h1 h2; exact hmono (hj.held l hl' s h1 h2)
      · intro s h1 h2
        simp only at h1 h2 ⊢
        rcases Nat.lt_or_ge s (pos.getD i default).slot with h3 | h3
        · exact hmono (hj.passed s h1 h3)
        · have : s = (pos.getD i default).slot := by omega
          rw [this]; exact hmono (hown (by omega))
  · rw [if_neg hc, if_neg (fun h => hc h.1)]
    exact ⟨hj.bucket, hj.lo, hj.hi, fun l h s h1 h2 => hmono (hj.held l h s h1 h2),
      fun s h1 h2 => hmono (hj.passed s h1 h2)⟩

theorem placeRound_inv {xs : List α} {upd : List Bool} {pos : List Pos} (hi : Inv H T)
    (hp : PlaceInv H T xs upd pos) (hl : xs.length = upd.length) :
    PlaceInv H T xs upd (placeRound T (xs.map (step H T)) upd pos) := by
  refine ⟨by simp [placeRound], ?_⟩
  intro i x hin hu hx
  obtain ⟨j, hj⟩ := hp.2 i x hin hu hx
  exact ⟨_, placeRound_lane hi hp hl hin hu hx hj⟩

theorem placeLoop_inv {xs : List α} {upd : List Bool} {pos : List Pos} (hi : Inv H T)
    (hp : PlaceInv H T xs upd pos) (hl : xs.length = upd.length) (rounds : Nat) :
    PlaceInv H T xs upd (placeLoop T (xs.map (step H T)) upd rounds pos) := by
  induction rounds generalizing pos with
  | zero => exact hp
  | succ r ih =>
    simp only [placeLoop]
    split
    · exact ih (placeRound_inv hi hp hl)
    · exact hp

end HashTable
