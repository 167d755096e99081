import Verif.SoAPad
import Verif.SoALaws2
import Verif.SoAScalar

/-!
# C68: `pad` with `mode` `"edge"`, `"wrap"`, `"symmetric"` or `"reflect"`
-/

namespace NArr

variable {α : Type} [Inhabited α]

/-- The modes of `jnp.pad` that copy entries. -/
inductive PadMode where
  | edge
  | wrap
  | symmetric
  | reflect
  deriving DecidableEq

/-- Along one axis of length `d`: the position whose entry `jnp.pad` (`reflect_type="even"`) copies to position `y`, where `0, …, d - 1` are the
positions of the entries themselves. -/
def padFrom (m : PadMode) (d : Nat) (y : Int) : Nat :=
  match m with
  | .edge => (min (max y 0) (d - 1)).toNat
  | .wrap => (y % (d : Int)).toNat
  | .symmetric =>
    let q := (y % (2 * d : Int)).toNat
    if q < d then q else 2 * d - 1 - q
  | .reflect =>
    if d = 1 then 0
    else
      let q := (y % (2 * (d - 1) : Int)).toNat
      if q < d then q else 2 * (d - 1) - q

/-- The same for every axis. -/
def padSrc (m : PadMode) : List Nat → List (Nat × Nat) → List Nat → List Nat
  | d :: b, p :: w, k :: j => padFrom m d ((k : Int) - p.1) :: padSrc m b w j
  | _, _, _ => []

/-- No axis of length 0 is padded (`jnp.pad` raises otherwise: there is nothing to copy). -/
def canPad : List Nat → List (Nat × Nat) → Bool
  | d :: b, p :: w => (decide (d ≠ 0) || (p.1 == 0 && p.2 == 0)) && canPad b w
  | _, _ => true

/-- `jnp.pad(a, widths, mode)` for the copying modes. -/
def padMode (m : PadMode) (a : NArr α) (w : List (Nat × Nat)) : Option (NArr α) :=
  if w.length = a.shape.length ∧ canPad a.shape w then some (ofFn (padded a.shape w) fun i => a.get (padSrc m a.shape w i)) else none

/-! ## One axis -/

/-- How each mode continues a row of `d` entries in both directions: position `y` shows entry `g y`, the row itself is at `0, …, d - 1`. -/
def Continues (m : PadMode) (d : Nat) (g : Int → Nat) : Prop :=
  (∀ i : Nat, i < d → g i = i) ∧
  match m with
  | .edge => ∀ y : Int, (y < 0 → g y = 0) ∧ ((d : Int) ≤ y → g y = d - 1)      -- first and last entry repeated
  | .wrap => ∀ y : Int, g (y + d) = g y                                        -- periodic
  | .symmetric => ∀ y : Int, g (-1 - y) = g y ∧ g (d + y) = g (d - 1 - y)      -- mirror just outside the first and the last entry
  | .reflect => if d = 1 then ∀ y, g y = 0 else
    ∀ y : Int, g (-y) = g y ∧ g ((d - 1 : Nat) + y) = g ((d - 1 : Nat) - y)    -- mirror on the first and on the last entry

theorem periodic_emod {g : Int → Nat} {n : Int} (h : ∀ y, g (y + n) = g y) (y : Int) : g y = g (y % n) := by
  have up : ∀ (k : Nat) (y : Int), g (y + n * k) = g y := by
    intro k
    induction k with
    | zero => intro y; simp
    | succ k ih => intro y; rw [show y + n * ((k + 1 : Nat) : Int) = (y + n * k) + n by rw [Int.natCast_add, Int.mul_add]; simp; omega, h, ih]
  have e := Int.emod_add_mul_ediv y n
  by_cases h0 : 0 ≤ y / n
  · have := up (y / n).toNat (y % n)
    rw [Int.toNat_of_nonneg h0, e] at this
    exact this
  · have := up (- (y / n)).toNat y
    rw [Int.toNat_of_nonneg (by omega), Int.mul_neg] at this
    rw [← this]
    congr 1
    omega

/-- `Continues` determines the continuation, and `padFrom` is it. -/
theorem padFrom_eq {m : PadMode} {d : Nat} {g : Int → Nat} (hd : 0 < d) (h : Continues m d g) (y : Int) : padFrom m d y = g y := by
  obtain ⟨hcore, hm⟩ := h
  have core : ∀ z : Int, 0 ≤ z → z < d → g z = z.toNat := fun z h1 h2 => by
    have := hcore z.toNat (by omega)
    rw [Int.toNat_of_nonneg h1] at this
    exact this
  cases m with
  | edge =>
    simp only [padFrom]
    simp only at hm
    by_cases h1 : y < 0
    · rw [(hm y).1 h1]; omega
    · by_cases h2 : (d : Int) ≤ y
      · rw [(hm y).2 h2]; omega
      · rw [core y (by omega) (by omega)]; omega
  | wrap =>
    have h1 := Int.emod_lt_of_pos y (b := (d : Int)) (by omega)
    have h2 := Int.emod_nonneg y (b := (d : Int)) (by omega)
    simp only [padFrom]
    rw [periodic_emod hm y, core _ h2 h1]
  | symmetric =>
    simp only at hm
    have h1 := Int.emod_lt_of_pos y (b := (2 * d : Int)) (by omega)
    have h2 := Int.emod_nonneg y (b := (2 * d : Int)) (by omega)
    have per : ∀ y, g (y + 2 * d) = g y := fun y => by
      rw [show y + 2 * (d : Int) = d + (y + d) by omega, (hm (y + d)).2, show (d : Int) - 1 - (y + d) = -1 - y by omega, (hm y).1]
    simp only [padFrom]
    rw [periodic_emod per y]
    generalize y % (2 * d : Int) = q at h1 h2 ⊢
    by_cases hq : q.toNat < d
    · rw [if_pos hq, core q h2 (by omega)]
    · rw [if_neg hq, show q = d + (q - d) by omega, (hm (q - d)).2, core _ (by omega) (by omega)]; omega
  | reflect =>
    simp only at hm
    simp only [padFrom]
    by_cases h0 : d = 1
    · rw [if_pos h0] at hm ⊢
      exact (hm y).symm
    · rw [if_neg h0] at hm ⊢
      have h1 := Int.emod_lt_of_pos y (b := (2 * (d - 1) : Int)) (by omega)
      have h2 := Int.emod_nonneg y (b := (2 * (d - 1) : Int)) (by omega)
      have per : ∀ y, g (y + 2 * (d - 1)) = g y := fun y => by
        rw [show y + 2 * ((d : Int) - 1) = (d - 1 : Nat) + (y + (d - 1)) by omega, (hm (y + (d - 1))).2,
          show ((d - 1 : Nat) : Int) - (y + (d - 1)) = - y by omega, (hm y).1]
      rw [periodic_emod per y]
      generalize y % (2 * (d - 1) : Int) = q at h1 h2 ⊢
      by_cases hq : q.toNat < d
      · rw [if_pos hq, core q h2 (by omega)]
      · rw [if_neg hq, show q = (d - 1 : Nat) + (q - (d - 1 : Nat)) by omega, (hm (q - (d - 1 : Nat))).2, core _ (by omega) (by omega)]; omega

theorem padFrom_lt {m : PadMode} {d : Nat} {y : Int} (hd : 0 < d) : padFrom m d y < d := by
  cases m with
  | edge => simp only [padFrom]; omega
  | wrap =>
    have h1 := Int.emod_lt_of_pos y (b := (d : Int)) (by omega)
    have h2 := Int.emod_nonneg y (b := (d : Int)) (by omega)
    simp only [padFrom]; omega
  | symmetric =>
    have h1 := Int.emod_lt_of_pos y (b := (2 * d : Int)) (by omega)
    have h2 := Int.emod_nonneg y (b := (2 * d : Int)) (by omega)
    simp only [padFrom]
    by_cases h : (y % (2 * d : Int)).toNat < d
    · rw [if_pos h]; exact h
    · rw [if_neg h]; omega
  | reflect =>
    simp only [padFrom]
    by_cases h0 : d = 1
    · rw [if_pos h0]; omega
    · rw [if_neg h0]
      have h1 := Int.emod_lt_of_pos y (b := (2 * (d - 1) : Int)) (by omega)
      have h2 := Int.emod_nonneg y (b := (2 * (d - 1) : Int)) (by omega)
      by_cases h : (y % (2 * (d - 1) : Int)).toNat < d
      · rw [if_pos h]; exact h
      · rw [if_neg h]; omega

/-- Entries of the array stay. -/
theorem padFrom_core (m : PadMode) {d i : Nat} (hi : i < d) : padFrom m d i = i := by
  cases m with
  | edge => simp only [padFrom]; omega
  | wrap =>
    simp only [padFrom]
    rw [Int.emod_eq_of_lt (by omega) (by omega)]; omega
  | symmetric =>
    simp only [padFrom]
    rw [Int.emod_eq_of_lt (by omega) (by omega), if_pos (by omega)]; omega
  | reflect =>
    simp only [padFrom]
    by_cases h0 : d = 1
    · rw [if_pos h0]; omega
    · rw [if_neg h0]
      by_cases h : i < 2 * (d - 1)
      · rw [Int.emod_eq_of_lt (by omega) (by omega), if_pos (by omega)]; omega
      · exfalso; omega

theorem sym_eq (d : Nat) (hd : 0 < d) (y : Int) :
    (if (y % (2 * d : Int)).toNat < d then (y % (2 * d : Int)).toNat else 2 * d - 1 - (y % (2 * d : Int)).toNat) =
    (if ((-1 - y) % (2 * d : Int)).toNat < d then ((-1 - y) % (2 * d : Int)).toNat else 2 * d - 1 - ((-1 - y) % (2 * d : Int)).toNat) := by
  have h1 := Int.emod_lt_of_pos y (b := (2 * d : Int)) (by omega)
  have h2 := Int.emod_nonneg y (b := (2 * d : Int)) (by omega)
  have e : (-1 - y) % (2 * d : Int) = 2 * d - 1 - y % (2 * d : Int) := by
    have h3 := Int.emod_add_mul_ediv y (2 * d : Int)
    have : -1 - y = (2 * d - 1 - y % (2 * d : Int)) + (2 * d : Int) * (- (y / (2 * d : Int)) - 1) := by
      rw [Int.mul_sub, Int.mul_neg, Int.mul_one]; omega
    rw [this, Int.add_mul_emod_self_left, Int.emod_eq_of_lt (by omega) (by omega)]
  rw [e]
  by_cases h : (y % (2 * d : Int)).toNat < d
  · rw [if_pos h, if_neg (by omega)]; omega
  · rw [if_neg h, if_pos (by omega)]; omega

theorem refl_eq (e : Nat) (he : 0 < e) (y : Int) :
    (if (y % (2 * e : Int)).toNat < e + 1 then (y % (2 * e : Int)).toNat else 2 * e - (y % (2 * e : Int)).toNat) =
    (if ((-y) % (2 * e : Int)).toNat < e + 1 then ((-y) % (2 * e : Int)).toNat else 2 * e - ((-y) % (2 * e : Int)).toNat) := by
  have h1 := Int.emod_lt_of_pos y (b := (2 * e : Int)) (by omega)
  have h2 := Int.emod_nonneg y (b := (2 * e : Int)) (by omega)
  have h3 := Int.emod_add_mul_ediv y (2 * e : Int)
  by_cases h0 : y % (2 * e : Int) = 0
  · have : (-y) % (2 * e : Int) = 0 := by
      rw [h0] at h3
      have : -y = 0 + (2 * e : Int) * (- (y / (2 * e : Int))) := by rw [Int.mul_neg]; omega
      rw [this, Int.add_mul_emod_self_left]; exact Int.zero_emod _
    rw [h0, this]
  · have : (-y) % (2 * e : Int) = 2 * e - y % (2 * e : Int) := by
      have : -y = (2 * e - y % (2 * e : Int)) + (2 * e : Int) * (- (y / (2 * e : Int)) - 1) := by
        rw [Int.mul_sub, Int.mul_neg, Int.mul_one]; omega
      rw [this, Int.add_mul_emod_self_left, Int.emod_eq_of_lt (by omega) (by omega)]
    rw [this]
    by_cases h : (y % (2 * e : Int)).toNat < e + 1
    · rw [if_pos h]
      by_cases h' : (y % (2 * e : Int)).toNat = e
      · rw [if_pos (by omega)]; omega
      · rw [if_neg (by omega)]; omega
    · rw [if_neg h, if_pos (by omega)]; omega

/-- Every row has a continuation in every mode. -/
theorem continues_padFrom (m : PadMode) {d : Nat} (hd : 0 < d) : Continues m d (padFrom m d) := by
  refine ⟨fun i hi => padFrom_core m hi, ?_⟩
  cases m with
  | edge =>
    simp only [padFrom]
    exact fun y => ⟨fun h => by omega, fun h => by omega⟩
  | wrap =>
    simp only [padFrom]
    intro y
    rw [Int.add_emod_right]
  | symmetric =>
    simp only [padFrom]
    intro y
    refine ⟨(sym_eq d hd y).symm, ?_⟩
    rw [sym_eq d hd ((d : Int) + y), show -1 - ((d : Int) + y) = (d - 1 - y) - 2 * d by omega, Int.sub_emod_right]
  | reflect =>
    simp only
    by_cases h0 : d = 1
    · rw [if_pos h0]
      intro y
      simp only [padFrom, if_pos h0]
    · rw [if_neg h0]
      obtain ⟨e, rfl⟩ : ∃ e, d = e + 1 := ⟨d - 1, by omega⟩
      have ez : ((2 : Int) * (((e + 1 : Nat) : Int) - 1)) = 2 * (e : Int) := by omega
      intro y
      simp only [padFrom, if_neg h0, ez, show e + 1 - 1 = e by omega]
      refine ⟨(refl_eq e (by omega) y).symm, ?_⟩
      rw [refl_eq e (by omega) ((e : Int) + y), show - ((e : Int) + y) = (e - y) - 2 * e by omega, Int.sub_emod_right]

/-! ## All axes -/

theorem padSrc_inB {m : PadMode} {b j : List Nat} {pads : List (Nat × Nat)} (h : pads.length = b.length) (hc : canPad b pads = true)
    (hj : InB (padded b pads) j) : InB b (padSrc m b pads j) := by
  induction b generalizing j pads with
  | nil => trivial
  | cons d b ih =>
    cases pads with
    | nil => simp at h
    | cons p pads =>
      cases j with
      | nil => exact hj.elim
      | cons k j =>
        simp only [canPad, Bool.and_eq_true] at hc
        refine ⟨padFrom_lt ?_, ih (by simpa using h) hc.2 hj.2⟩
        have hk : k < d + p.1 + p.2 := hj.1
        have := hc.1
        simp only [Bool.or_eq_true, decide_eq_true_eq, Bool.and_eq_true, beq_iff_eq] at this
        omega

theorem padSrc_shift (m : PadMode) {b j : List Nat} {pads : List (Nat × Nat)} (h : pads.length = b.length) (hj : InB b j) :
    padSrc m b pads (shift pads j) = j := by
  induction b generalizing j pads with
  | nil =>
    cases j with
    | nil => rfl
    | cons => exact hj.elim
  | cons d b ih =>
    cases j with
    | nil => exact hj.elim
    | cons k j =>
      cases pads with
      | nil => simp at h
      | cons p pads =>
        have e := ih (pads := pads) (by simpa using h) hj.2
        unfold shift at e ⊢
        simp only [List.zipWith_cons_cons, padSrc, e]
        rw [show ((k + p.1 : Nat) : Int) - p.1 = k by omega, padFrom_core m hj.1]

theorem padSrc_append {m : PadMode} {b r j u : List Nat} {pads : List (Nat × Nat)} (h : pads.length = b.length) (hj : j.length = b.length)
    (hu : InB r u) : padSrc m (b ++ r) (pads ++ List.replicate r.length (0, 0)) (j ++ u) = padSrc m b pads j ++ u := by
  induction b generalizing j pads with
  | nil =>
    cases pads with
    | cons => simp at h
    | nil =>
      cases j with
      | cons => simp at hj
      | nil =>
        simp only [List.nil_append, padSrc]
        induction r generalizing u with
        | nil =>
          cases u with
          | nil => rfl
          | cons => exact hu.elim
        | cons d r ih =>
          cases u with
          | nil => exact hu.elim
          | cons k u =>
            simp only [List.length_cons, List.replicate_succ, padSrc]
            rw [ih hu.2]
            have := padFrom_core m hu.1
            rw [show ((k : Int) - (0 : Nat)) = k by omega, this]
  | cons d b ih =>
    cases pads with
    | nil => simp at h
    | cons p pads =>
      cases j with
      | nil => simp at hj
      | cons k j =>
        simp only [List.cons_append, padSrc]
        rw [ih (by simpa using h) (by simpa using hj)]

theorem canPad_append {b r : List Nat} {pads : List (Nat × Nat)} (h : pads.length = b.length) :
    canPad (b ++ r) (pads ++ List.replicate r.length (0, 0)) = canPad b pads := by
  induction b generalizing pads with
  | nil =>
    cases pads with
    | cons => simp at h
    | nil =>
      simp only [List.nil_append]
      induction r with
      | nil => rfl
      | cons d r ih =>
        simp only [List.length_cons, List.replicate_succ, canPad, ih]
        simp
  | cons d b ih =>
    cases pads with
    | nil => simp at h
    | cons p pads =>
      simp only [List.cons_append, canPad]
      rw [ih (by simpa using h)]

theorem padMode_rearranges (G : List Nat → Prop) (m : PadMode) {b : List Nat} {pads : List (Nat × Nat)} (h : pads.length = b.length) (hc : canPad b pads = true) :
    Rearranges (α := α) G b (padded b pads) (padSrc m b pads) fun a => padMode m a (pads ++ List.replicate (a.shape.length - b.length) (0, 0)) := by
  intro r a _ ha hs
  have hrl : a.shape.length - b.length = r.length := by rw [hs, List.length_append]; omega
  have hp : padded (b ++ r) (pads ++ List.replicate r.length (0, 0)) = padded b pads ++ r := by
    unfold padded
    rw [List.zipWith_append h.symm, zero_pads]
  dsimp only
  unfold padMode
  rw [hrl, if_pos ⟨by rw [hs]; simp [h], by rw [hs, canPad_append h]; exact hc⟩]
  refine ⟨_, rfl, ofFn_wf _ _, by rw [ofFn_shape, hs, hp], fun j hj => ?_⟩
  have hin := padSrc_inB (m := m) h hc hj
  refine ⟨hin, ?_⟩
  rw [hs, hp, sub_ofFn _ hj, sub_eq hs hin]
  refine ofFn_congr fun u hu => ?_
  rw [padSrc_append h (by rw [hj.length, padded_length h]) hu]

theorem padMode_natural (m : PadMode) (pads : List (Nat × Nat)) (n : Nat) : Natural fun _ _ a => padMode m a (pads ++ List.replicate (a.shape.length - n) (0, 0)) := by
  intro β γ _ _ f hf a
  unfold padMode
  dsimp only [mapArr_shape]
  refine ite_map fun _ => ?_
  simp only [Option.map_some, mapArr_ofFn, get_mapArr hf]

end NArr

namespace SoA

open Agg NArr

variable {α : Type} [Inhabited α]

/-- `pad(x, pad_width, mode)` with a copying mode (batch_ops.py:96-169). -/
def padWith (m : PadMode) (c : Cls α) (x : Tree α) (w : PadWidth) : Option (Tree α) :=
  (batchShape c x).bind fun
    | .tup [] =>                                                                                -- 105-134
      (normalizePad w 1).bind fun ws =>
      if ws.any fun p => decide (p.1 < 0 ∨ p.2 < 0) then none                                   -- 107-108
      else if ws.all fun p => decide (p.1 = 0 ∧ p.2 = 0) then some x                            -- 110-111
      else (treeMapM (fun a => a.expandDims 0) x).bind fun e => treeMapM (fun a =>              -- 120-134
        padMode m a ((ws.map fun q => (q.1.toNat, q.2.toNat)) ++ List.replicate (a.shape.length - 1) (0, 0))) e
    | .tup b =>                                                                                 -- 136-167
      (normalizePad w b.length).bind fun ws =>
      if ws.any fun p => decide (p.1 < 0 ∨ p.2 < 0) then none                                   -- 140-141
      else if ws.all fun p => decide (p.1 = 0 ∧ p.2 = 0) then some x                            -- 143-144
      else treeMapM (fun a =>                                                                   -- 158-167
        padMode m a ((ws.map fun q => (q.1.toNat, q.2.toNat)) ++ List.replicate (a.shape.length - b.length) (0, 0))) x
    | .unstr => none                                                                            -- 169

theorem toNat_intPads (pads : List (Nat × Nat)) : (intPads pads).map (fun q => (q.1.toNat, q.2.toNat)) = pads := by
  unfold intPads
  rw [List.map_map]
  conv => rhs; rw [← List.map_id pads]
  rfl

theorem padSrc_eq {m : PadMode} {b t : List Nat} {pads : List (Nat × Nat)} {g : Nat → Int → Nat} (hl : pads.length = b.length)
    (ht : InB (padded b pads) t) (hg : ∀ i, i < b.length → 0 < b.getD i 0 → Continues m (b.getD i 0) (g i)) (hc : canPad b pads = true) :
    padSrc m b pads t = (List.range b.length).map fun i => g i ((t.getD i 0 : Int) - ((pads.getD i (0, 0)).1 : Int)) := by
  induction b generalizing t pads g with
  | nil => rfl
  | cons d b ih =>
    cases pads with
    | nil => simp at hl
    | cons p pads =>
      cases t with
      | nil => exact ht.elim
      | cons k t =>
        simp only [canPad, Bool.and_eq_true] at hc
        have hk : k < d + p.1 + p.2 := ht.1
        have h1 := hc.1
        simp only [Bool.or_eq_true, decide_eq_true_eq, Bool.and_eq_true, beq_iff_eq] at h1
        have hd : 0 < d := by omega
        have e := ih (pads := pads) (t := t) (g := fun i => g (i + 1)) (by simpa using hl) ht.2
          (fun i hi hp => by simpa using hg (i + 1) (by simpa using hi) (by simpa using hp)) hc.2
        simp only [padSrc, List.length_cons, List.range_succ_eq_map, List.map_cons, List.map_map]
        rw [e, padFrom_eq hd (by simpa using hg 0 (by simp) (by simpa using hd))]
        rfl

theorem canPad_iff {b : List Nat} {pads : List (Nat × Nat)} (hl : pads.length = b.length) :
    canPad b pads = true ↔ ∀ i, i < b.length → b.getD i 0 = 0 → pads.getD i (0, 0) = (0, 0) := by
  induction b generalizing pads with
  | nil => cases pads with | nil => simp [canPad] | cons => simp at hl
  | cons d b ih =>
    cases pads with
    | nil => simp at hl
    | cons p pads =>
      simp only [canPad, Bool.and_eq_true, Bool.or_eq_true, decide_eq_true_eq, beq_iff_eq]
      rw [ih (by simpa using hl)]
      constructor
      · rintro ⟨h1, h2⟩ i hi h0
        cases i with
        | zero =>
          have h0' : d = 0 := by simpa using h0
          have : p.1 = 0 ∧ p.2 = 0 := by omega
          exact Prod.ext this.1 this.2
        | succ i => simpa using h2 i (by simpa using hi) (by simpa using h0)
      · intro h
        refine ⟨?_, fun i hi h0 => by simpa using h (i + 1) (by simpa using hi) (by simpa using h0)⟩
        by_cases h0 : d = 0
        · have := h 0 (by simp) (by simpa using h0)
          have : p = (0, 0) := by simpa using this
          subst this
          exact Or.inr ⟨rfl, rfl⟩
        · exact Or.inl h0

theorem padWith_batched {m : PadMode} {b : List Nat} {c : Cls α} {x : Tree α} {w : PadWidth} {pads : List (Nat × Nat)} (hne : c ≠ .nil) (hc : c.HasFields)
    (h : Conf b c x) (hb : b ≠ []) (hw : normalizePad w b.length = some (intPads pads)) (hnz : ¬ ∀ p ∈ pads, p = (0, 0)) :
    padWith m c x w = treeMapM (fun a => padMode m a (pads ++ List.replicate (a.shape.length - b.length) (0, 0))) x := by
  cases b with
  | nil => exact absurd rfl hb
  | cons n b =>
    unfold padWith
    rw [batchShape_of_conf hne hc h]
    simp only [Option.bind_some]
    rw [hw]
    simp only [Option.bind_some]
    rw [intPads_nonneg]
    simp only [Bool.false_eq_true, if_false]
    rw [if_neg fun hh => hnz (intPads_zero.1 hh), toNat_intPads]

/-- **C68, batched instances.**  For pads `≥ 0` on every batch axis, none on an axis of length 0: the result has the padded batch shape and record `t` of it is,
with all fields, the record of `x` that the mode's continuation of every axis shows at `t`. -/
theorem pad_mode_records {m : PadMode} {b : List Nat} {c : Cls α} {x : Tree α} {w : PadWidth} {pads : List (Nat × Nat)} (hne : c ≠ .nil) (hc : c.HasFields)
    (h : Conf b c x) (hb : b ≠ []) (hw : normalizePad w b.length = some (intPads pads)) (hl : pads.length = b.length)
    (h0 : ∀ i, i < b.length → b.getD i 0 = 0 → pads.getD i (0, 0) = (0, 0)) :
    ∃ z, padWith m c x w = some z ∧ Conf (padded b pads) c z ∧
      (∀ j, InB b j → item (shift pads j) z = item j x) ∧
      ∀ g : Nat → Int → Nat, (∀ i, i < b.length → 0 < b.getD i 0 → Continues m (b.getD i 0) (g i)) → ∀ t, InB (padded b pads) t →
        item t z = item ((List.range b.length).map fun i => g i ((t.getD i 0 : Int) - ((pads.getD i (0, 0)).1 : Int))) x := by
  have hcan := (canPad_iff hl).2 h0
  by_cases hz : ∀ p ∈ pads, p = (0, 0)
  · have hx : padWith m c x w = some x := by
      cases b with
      | nil => exact absurd rfl hb
      | cons n b =>
        unfold padWith
        rw [batchShape_of_conf hne hc h]
        simp only [Option.bind_some]
        rw [hw]
        simp only [Option.bind_some]
        rw [intPads_nonneg]
        simp only [Bool.false_eq_true, if_false]
        rw [if_pos (intPads_zero.2 hz)]
    obtain ⟨e1, e2⟩ := padded_zero hl hz
    refine ⟨x, hx, by rw [e1]; exact h, fun j hj => by rw [e2 j hj], fun g hg t ht => ?_⟩
    rw [← padSrc_eq hl ht hg hcan]
    rw [e1] at ht
    have := padSrc_shift m hl ht
    rw [e2 t ht] at this
    rw [this]
  · rw [padWith_batched hne hc h hb hw hz]
    obtain ⟨z, h1, h2, h3⟩ := rearranges_any (padMode_rearranges _ m hl hcan) h
    refine ⟨z, h1, h2, fun j hj => ?_, fun g hg t ht => ?_⟩
    · rw [(h3 _ (shift_inB hl hj)).2, padSrc_shift m hl hj]
    · rw [← padSrc_eq hl ht hg hcan]
      exact (h3 t ht).2

/-- Padding an empty axis raises: there is no record to copy. -/
theorem pad_mode_empty_raises {m : PadMode} {b : List Nat} {c : Cls α} {x : Tree α} {w : PadWidth} {pads : List (Nat × Nat)} {i : Nat} (hne : c ≠ .nil)
    (hc : c.HasFields) (h : Conf b c x) (hw : normalizePad w b.length = some (intPads pads)) (hl : pads.length = b.length)
    (hi : i < b.length) (h0 : b.getD i 0 = 0) (hp : pads.getD i (0, 0) ≠ (0, 0)) : padWith m c x w = none := by
  have hb : b ≠ [] := fun e => by subst e; simp at hi
  have hnz : ¬ ∀ p ∈ pads, p = (0, 0) := fun hz => by
    have hlt : i < pads.length := by omega
    apply hp
    rw [List.getD_eq_getElem?_getD, List.getElem?_eq_getElem hlt]
    exact hz _ (List.getElem_mem hlt)
  have hcan : ¬ canPad b pads = true := fun hh => hp ((canPad_iff hl).1 hh i hi h0)
  rw [padWith_batched hne hc h hb hw hnz]
  have hfirst : ∃ a ∈ leaves x, padMode m a (pads ++ List.replicate (a.shape.length - b.length) (0, 0)) = none := by
    obtain ⟨a, ha⟩ := List.exists_mem_of_ne_nil _ (leaves_ne_nil hne hc h)
    obtain ⟨_, r, hs⟩ := conf_leaves h a ha
    refine ⟨a, ha, ?_⟩
    unfold padMode
    rw [if_neg]
    rintro ⟨_, h2⟩
    rw [hs, show (b ++ r).length - b.length = r.length by simp, canPad_append hl] at h2
    exact hcan h2
  obtain ⟨a, ha, he⟩ := hfirst
  exact treeMapM_none ha he

/-- A negative pad raises. -/
theorem pad_mode_negative_raises {m : PadMode} {b : List Nat} {c : Cls α} {x : Tree α} {w : PadWidth} {ws : List (Int × Int)}
    (hne : c ≠ .nil) (hc : c.HasFields) (h : Conf b c x) (hw : normalizePad w (if b = [] then 1 else b.length) = some ws) (hneg : ∃ p ∈ ws, p.1 < 0 ∨ p.2 < 0) :
    padWith m c x w = none := by
  have hany : ws.any (fun p => decide (p.1 < 0 ∨ p.2 < 0)) = true := by
    obtain ⟨p, h1, h2⟩ := hneg
    rw [List.any_eq_true]
    exact ⟨p, h1, by simpa using h2⟩
  unfold padWith
  rw [batchShape_of_conf hne hc h]
  cases b with
  | nil =>
    simp only [Option.bind_some]
    simp only [if_true] at hw
    rw [hw]
    simp only [Option.bind_some]
    rw [if_pos hany]
  | cons n b =>
    simp only [Option.bind_some]
    simp only [reduceCtorEq, if_false] at hw
    rw [hw]
    simp only [Option.bind_some]
    rw [if_pos hany]

/-- **C68, one record.**  Padding a single record by `(lo, hi)`, not both 0, gives a batch of `lo + 1 + hi` copies of it, in every mode; by `(0, 0)` the record
itself. -/
theorem pad_mode_single {m : PadMode} {c : Cls α} {x : Tree α} {w : PadWidth} {lo hi : Nat} (hne : c ≠ .nil) (hc : c.HasFields)
    (h : Conf [] c x) (hw : normalizePad w 1 = some (intPads [(lo, hi)])) :
    (lo = 0 ∧ hi = 0 → padWith m c x w = some x) ∧
    (¬ (lo = 0 ∧ hi = 0) → ∃ z, padWith m c x w = some z ∧ Conf [1 + lo + hi] c z ∧ ∀ k, k < 1 + lo + hi → item [k] z = x) := by
  have h0 := intPads_zero (pads := [(lo, hi)])
  unfold padWith
  rw [batchShape_of_conf hne hc h]
  simp only [Option.bind_some]
  rw [hw]
  simp only [Option.bind_some]
  rw [intPads_nonneg]
  simp only [Bool.false_eq_true, if_false]
  refine ⟨fun h1 => ?_, fun h1 => ?_⟩
  · rw [if_pos (h0.2 (by simp [h1]))]
  · rw [if_neg fun hh => h1 (by have := h0.1 hh (lo, hi) (by simp); simpa using this), toNat_intPads]
    obtain ⟨e, g1, g2, g3⟩ := expand_dims_records (ax := 0) h (Nat.le_refl _)
    have ge : treeMapM (fun a => a.expandDims 0) x = some e := g1
    have g3 : item [0] e = x := by
      rw [show [0] = ([] : List Nat).take 0 ++ 0 :: ([] : List Nat).drop 0 from rfl, g3 [] trivial]
      exact treeMap_id fun a ha => sub_nil (conf_leaves h a ha).1
    rw [ge, Option.bind_some]
    obtain ⟨z, h1, h2, h3⟩ := rearranges_any (padMode_rearranges _ m (b := [1]) (pads := [(lo, hi)]) rfl rfl) g2
    refine ⟨z, h1, h2, fun k hk => ?_⟩
    have hin : InB (padded [1] [(lo, hi)]) [k] := ⟨hk, trivial⟩
    obtain ⟨k1, k2⟩ := h3 [k] hin
    rw [k2]
    have : padSrc m [1] [(lo, hi)] [k] = [0] := by
      have : padFrom m 1 ((k : Int) - lo) < 1 := padFrom_lt (by omega)
      simp only [padSrc]
      rw [show padFrom m 1 ((k : Int) - lo) = 0 by omega]
    rw [this]
    exact g3

/-- Non-trivial cases: a class with a scalar and a vector field, two records, padded on both sides in every mode; an empty axis; one record. -/
example : padWith .edge demoSetC demoSetX (.pairs [(2, 1)]) = some (.leaf "a" ⟨[5], [1, 1, 1, 2, 2]⟩ (.leaf "v" ⟨[5, 2], [3, 4, 3, 4, 3, 4, 5, 6, 5, 6]⟩ .nil)) ∧
    padWith .wrap demoSetC demoSetX (.pairs [(1, 2)]) = some (.leaf "a" ⟨[5], [2, 1, 2, 1, 2]⟩ (.leaf "v" ⟨[5, 2], [5, 6, 3, 4, 5, 6, 3, 4, 5, 6]⟩ .nil)) ∧
    padWith .symmetric demoSetC demoSetX (.pairs [(3, 1)]) =
      some (.leaf "a" ⟨[6], [2, 2, 1, 1, 2, 2]⟩ (.leaf "v" ⟨[6, 2], [5, 6, 5, 6, 3, 4, 3, 4, 5, 6, 5, 6]⟩ .nil)) ∧
    padWith .reflect demoSetC demoSetX (.pairs [(2, 1)]) = some (.leaf "a" ⟨[5], [1, 2, 1, 2, 1]⟩ (.leaf "v" ⟨[5, 2], [3, 4, 5, 6, 3, 4, 5, 6, 3, 4]⟩ .nil)) ∧
    Conf [2] demoSetC demoSetX ∧ normalizePad (.pairs [(2, 1)]) 1 = some (intPads [(2, 1)]) ∧
    Continues .reflect 2 (padFrom .reflect 2) ∧
    padWith .edge demoSetC (.leaf "a" ⟨[0], []⟩ (.leaf "v" ⟨[0, 2], []⟩ .nil)) (.pairs [(2, 1)]) = none := by
  refine ⟨by decide +kernel, by decide +kernel, by decide +kernel, by decide +kernel, ⟨rfl, ⟨rfl, rfl⟩, rfl, ⟨rfl, rfl⟩, trivial⟩, rfl, continues_padFrom _ (by omega), by decide +kernel⟩

end SoA
