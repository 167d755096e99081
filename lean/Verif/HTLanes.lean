import Verif.HTExt

/-! # The lane-parallel lookup -/

namespace HashTable

open Jax SortGroup Dedupe

variable {α : Type u} [DecidableEq α] {H : Hasher α} {T : Table α}

/-- `k` steps of one lane on its own. -/
def laneIter (H : Hasher α) (T : Table α) : Nat → Lane α → Lane α
  | 0, l => l
  | k + 1, l => laneIter H T k (laneStep H T l)

theorem laneStep_inactive {l : Lane α} (h : l.active = false) : laneStep H T l = l := by
  cases l; simp only at h; subst h; simp [laneStep]

theorem laneIter_inactive {l : Lane α} (h : l.active = false) (k : Nat) : laneIter H T k l = l := by
  induction k with
  | zero => rfl
  | succ k ih => rw [laneIter, laneStep_inactive h, ih]

/-- The shared loop runs each lane independently. -/
theorem laneLoop_eq (k : Nat) (ls : List (Lane α)) : laneLoop H T k ls = ls.map (laneIter H T k) := by
  induction k generalizing ls with
  | zero => simp [laneLoop, laneIter]
  | succ k ih =>
    simp only [laneLoop]
    split
    · rw [ih, List.map_map]; rfl
    · rename_i h
      have h' : ∀ l ∈ ls, l.active = false := by simpa using h
      rw [List.map_congr_left (g := id) (fun l hl => laneIter_inactive (h' l hl) _)]
      simp

/-- Final state of a lane. -/
inductive LaneOut (H : Hasher α) (T : Table α) (x : α) (j : Nat) : Lane α → Prop
  | found (s p : Nat) : Has T x (path H T x j) s → LaneOut H T x j ⟨x, path H T x j, s, true, p, false⟩
  | absent (p : Nat) : fillOf T (path H T x j) < T.bs → (∀ s, ¬ Has T x (path H T x j) s) →
      LaneOut H T x j ⟨x, path H T x j, fillOf T (path H T x j), false, p, false⟩
  | limit (p : Nat) : T.maxProbes ≤ (j + 1) * T.bs → Skip T x (path H T x j) →
      LaneOut H T x j ⟨x, path H T x j, fillOf T (path H T x j), false, p, false⟩

theorem laneIter_spec (hi : Inv H T) (x : α) (fuel j : Nat) (hf : T.maxProbes < fuel + j * T.bs)
    (hp : j * T.bs < T.maxProbes) :
    ∃ j', j ≤ j' ∧ (∀ l, j ≤ l → l < j' → Skip T x (path H T x l)) ∧
      LaneOut H T x j' (laneIter H T fuel ⟨x, path H T x j, 0, false, j * T.bs, true⟩) := by
  have hsh := hi.toShape
  induction fuel generalizing j with
  | zero => omega
  | succ fuel ih =>
    have hb := hsh.path_lt' H x j
    have hlim : limit T (path H T x j) = fillOf T (path H T x j) := by
      unfold limit; rw [hsh.rd_fill hb]; have := hi.fill_le _ hb; have := hsh.bs_le; omega
    obtain ⟨s1, s2⟩ := scan_spec hi x hb
    have e2 : j * T.bs + T.bs = (j + 1) * T.bs := by rw [Nat.add_mul]; omega
    rw [laneIter]
    simp only [laneStep, Bool.true_and, Bool.not_false, hp, decide_true, if_true, Bool.false_or, e2]
    cases hr : (scanBucket H T x (path H T x j)).1 with
    | true =>
      simp only [Bool.not_true, Bool.false_and, Bool.false_eq_true, if_false, if_true]
      rw [laneIter_inactive rfl]
      exact ⟨j, Nat.le_refl _, fun l h1 h2 => by omega, LaneOut.found _ _ (s1 hr)⟩
    | false =>
      have hno := s2 hr
      by_cases hfull : fillOf T (path H T x j) = T.bs
      · have e : (limit T (path H T x j) == T.bs) = true := by rw [hlim, hfull]; simp
        by_cases hp2 : (j + 1) * T.bs < T.maxProbes
        · simp only [e, hp2, Bool.not_false, Bool.and_self, decide_true, if_true]
          obtain ⟨j', hj, hskip, hout⟩ := ih (j + 1) (by rw [Nat.add_mul]; have := hsh.bs_pos; omega) hp2
          refine ⟨j', by omega, ?_, hout⟩
          intro l h1 h2
          by_cases hl : l = j
          · subst hl; exact ⟨hfull, hno⟩
          · exact hskip l (by omega) h2
        · simp only [e, hp2, Bool.not_false, Bool.and_self, decide_false, Bool.and_false, Bool.false_eq_true, if_false]
          rw [laneIter_inactive rfl, hlim]
          exact ⟨j, Nat.le_refl _, fun l h1 h2 => by omega, LaneOut.limit _ (by omega) ⟨hfull, hno⟩⟩
      · have e : (limit T (path H T x j) == T.bs) = false := by rw [hlim]; simpa using hfull
        simp only [e, Bool.and_false, Bool.false_and, Bool.false_eq_true, if_false]
        rw [laneIter_inactive rfl, hlim]
        exact ⟨j, Nat.le_refl _, fun l h1 h2 => by omega,
          LaneOut.absent _ (by have := hi.fill_le _ hb; omega) hno⟩

/-- The lane of item `x` after the loop, started with the given `found` and `active` flags. -/
def laneEnd (H : Hasher α) (T : Table α) (x : α) (found active : Bool) : Lane α :=
  laneIter H T (T.maxProbes + 1) ⟨x, start H T x, 0, found, 0, active⟩

theorem lookupLanes_getElem? (xs : List α) (found active : List Bool) (i : Nat) :
    (lookupLanes H T xs found active)[i]? =
      xs[i]?.map fun x => laneEnd H T x (found.getD i false) (active.getD i false) := by
  unfold lookupLanes laneEnd
  rw [laneLoop_eq, List.map_map, List.getElem?_map, List.getElem?_zipIdx]
  cases xs[i]? <;> simp

theorem lookupLanes_length (xs : List α) (found active : List Bool) :
    (lookupLanes H T xs found active).length = xs.length := by
  unfold lookupLanes; rw [laneLoop_eq]; simp

theorem laneEnd_idle (x : α) {found active : Bool} (h : found = true ∨ active = false) :
    (laneEnd H T x found active).found = found ∧ (laneEnd H T x found active).bucket = start H T x ∧
      (laneEnd H T x found active).slot = 0 := by
  unfold laneEnd
  rw [laneIter]
  have : laneStep H T ⟨x, start H T x, 0, found, 0, active⟩ = ⟨x, start H T x, 0, found, 0, false⟩ := by
    simp only [laneStep]
    rw [if_neg]
    rcases h with h | h <;> simp [h]
  rw [this, laneIter_inactive rfl]
  exact ⟨rfl, rfl, rfl⟩

theorem laneEnd_spec (hi : Inv H T) (x : α) :
    ∃ j, (∀ l, l < j → Skip T x (path H T x l)) ∧ LaneOut H T x j (laneEnd H T x false true) := by
  have hp : 0 < T.maxProbes := by
    have := hi.toShape.probes
    have := Nat.mul_pos hi.toShape.cap_pos hi.toShape.bs_pos
    omega
  obtain ⟨j, _, h1, h2⟩ := laneIter_spec hi x (T.maxProbes + 1) 0 (by omega) (by omega)
  refine ⟨j, fun l hl => h1 l (by omega) hl, ?_⟩
  simp only [Nat.zero_mul] at h2
  exact h2

/-- A lane finds `x` iff it is stored, at its position. -/
theorem laneEnd_found (hi : Inv H T) (x : α) :
    ((laneEnd H T x false true).found = true ↔ ∃ b s, b < T.cap ∧ Has T x b s) ∧
    ((laneEnd H T x false true).found = true → (laneEnd H T x false true).bucket < T.cap ∧
      Has T x (laneEnd H T x false true).bucket (laneEnd H T x false true).slot) := by
  have hsh := hi.toShape
  obtain ⟨j, hskip, hout⟩ := laneEnd_spec hi x
  generalize laneEnd H T x false true = r at hout
  cases hout with
  | found s p hs =>
    exact ⟨⟨fun _ => ⟨_, s, hsh.path_lt' H x j, hs⟩, fun _ => rfl⟩, fun _ => ⟨hsh.path_lt' H x j, hs⟩⟩
  | absent p hlt hno =>
    refine ⟨⟨fun h => (by cases h), ?_⟩, fun h => (by cases h)⟩
    rintro ⟨b, s, hb, hh⟩
    obtain ⟨p, hp, hpb, hjp, hfull⟩ := has_of_path hi hb hh hskip
    rcases Nat.lt_or_ge j p with h | h
    · have := hfull j h; omega
    · have : p = j := by omega
      subst this; rw [← hpb] at hh; exact absurd hh (hno s)
  | limit p hlim hsk =>
    refine ⟨⟨fun h => (by cases h), ?_⟩, fun h => (by cases h)⟩
    rintro ⟨b, s, hb, hh⟩
    have hskip' : ∀ l, l < j + 1 → Skip T x (path H T x l) := by
      intro l hl
      rcases Nat.lt_or_ge l j with h | h
      · exact hskip l h
      · have : l = j := by omega
        subst this; exact hsk
    obtain ⟨p, hp, hpb, hjp, hfull⟩ := has_of_path hi hb hh hskip'
    have hpr := hsh.probes
    have : T.cap * T.bs ≤ (j + 1) * T.bs := by omega
    have := Nat.le_of_mul_le_mul_right this hsh.bs_pos
    omega

/-- Where an unsuccessful lane stands: all earlier buckets of its path are full, and its slot is the fill level of its
bucket. -/
theorem laneEnd_absent (hi : Inv H T) (x : α) (h : (laneEnd H T x false true).found = false) :
    ∃ j, (∀ l, l < j → fillOf T (path H T x l) = T.bs) ∧ (laneEnd H T x false true).bucket = path H T x j ∧
      (laneEnd H T x false true).slot = fillOf T (path H T x j) := by
  obtain ⟨j, hskip, hout⟩ := laneEnd_spec hi x
  generalize laneEnd H T x false true = r at hout h
  cases hout with
  | found s p hs => cases h
  | absent p hlt hno => exact ⟨j, fun l hl => (hskip l hl).1, rfl, rfl⟩
  | limit p hlim hsk => exact ⟨j, fun l hl => (hskip l hl).1, rfl, rfl⟩

/-- Parallel lookup, lane by lane. -/
theorem lookupParallel_getElem? (xs : List α) (filled : List Bool) (i : Nat) :
    (lookupParallel H T xs filled)[i]? = xs[i]?.map fun x =>
      (flat T (laneEnd H T x false (filled.getD i false)).bucket (laneEnd H T x false (filled.getD i false)).slot,
       (laneEnd H T x false (filled.getD i false)).found) := by
  unfold lookupParallel
  rw [List.getElem?_map, lookupLanes_getElem?]
  have : (xs.map fun _ => false).getD i false = false := by
    rw [List.getD_eq_getElem?_getD, List.getElem?_map]; cases xs[i]? <;> rfl
  rw [this]
  cases xs[i]? <;> rfl

end HashTable
