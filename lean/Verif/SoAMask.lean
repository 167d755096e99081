import Verif.SoASet

/-!
# Indexing and updating by masks and by several index arrays (C46)
-/

namespace NArr

/-- The positions of the true entries of a mask: exactly these, in row-major order. -/
theorem truePositions_spec {s : List Nat} {bits : List Bool} (hb : bits.length = size s) :
    (∀ p, p ∈ truePositions s bits ↔ InB s p ∧ bits[ravel s p]? = some true) ∧ ((truePositions s bits).map (ravel s)).Pairwise (· < ·) := by
  have hget : ∀ (k : Nat) (p : List Nat) (t : Bool), ((indices s).zip bits)[k]? = some (p, t) ↔ k < size s ∧ p = unravel s k ∧ bits[k]? = some t := by
    intro k p t
    rw [List.getElem?_zip_eq_some]
    unfold indices
    rw [List.getElem?_map]
    constructor
    · rintro ⟨h1, h2⟩
      by_cases hk : k < size s
      · rw [List.getElem?_range hk] at h1
        exact ⟨hk, (Option.some.inj h1).symm, h2⟩
      · rw [List.getElem?_eq_none (by simpa using hk)] at h1; cases h1
    · rintro ⟨hk, h1, h2⟩
      rw [List.getElem?_range hk, h1]
      exact ⟨rfl, h2⟩
  constructor
  · intro p
    unfold truePositions
    rw [List.mem_map]
    constructor
    · rintro ⟨⟨q, t⟩, hq, rfl⟩
      obtain ⟨h1, h2⟩ := List.mem_filter.1 hq
      obtain ⟨k, hk⟩ := List.mem_iff_getElem?.1 h1
      obtain ⟨a1, a2, a3⟩ := (hget k q t).1 hk
      simp only at h2 a2 ⊢
      rw [a2]
      exact ⟨unravel_inB a1, by rw [ravel_unravel a1, a3, h2]⟩
    · rintro ⟨h1, h2⟩
      exact ⟨(p, true), List.mem_filter.2 ⟨List.mem_iff_getElem?.2 ⟨ravel s p, (hget _ _ _).2 ⟨ravel_lt h1, (unravel_ravel h1).symm, h2⟩⟩, rfl⟩, rfl⟩
  · unfold truePositions
    rw [List.map_map]
    have hall : (((indices s).zip bits).map (ravel s ∘ fun p => p.1)).Pairwise (· < ·) := by
      have e : ((indices s).zip bits).map (ravel s ∘ fun p => p.1) = List.range (size s) := by
        apply List.ext_getElem?
        intro k
        rw [List.getElem?_map]
        by_cases hk : k < size s
        · have hb' : bits[k]? = some (bits[k]'(by omega)) := List.getElem?_eq_getElem (by omega)
          rw [(hget k _ _).2 ⟨hk, rfl, hb'⟩, List.getElem?_range hk]
          simp [ravel_unravel hk]
        · rw [List.getElem?_eq_none (by rw [List.length_zip, indices_length]; omega), List.getElem?_eq_none (by simpa using hk)]
          rfl
      rw [e]
      exact List.pairwise_lt_range
    exact List.Pairwise.sublist (List.Sublist.map _ List.filter_sublist) hall

end NArr

namespace SoA

open Agg NArr

variable {α : Type} [Inhabited α]

/-- **C46, masks.**  `x[mask]` for a mask of the batch shape has one record for every true entry, in row-major order of the positions. -/
theorem getitem_mask_records {b : List Nat} {c : Cls α} {x : Tree α} (h : Conf b c x) {bits : List Bool} (hb : bits.length = size b) :
    ∃ (z : Tree α) (ps : List (List Nat)), getitem x (.mask b bits) = some z ∧ (∀ p, p ∈ ps ↔ InB b p ∧ bits[ravel b p]? = some true) ∧
      (ps.map (ravel b)).Pairwise (· < ·) ∧ Conf [ps.length] c z ∧ ∀ (k : Nat) (p : List Nat), ps[k]? = some p → item [k] z = item p x := by
  obtain ⟨z, h1, h2, h3⟩ := getitem_mask h hb
  obtain ⟨h4, h5⟩ := truePositions_spec hb
  exact ⟨z, truePositions b bits, h1, h4, h5, h2, h3⟩

/-- **C46, several index arrays.**  `x[i₁, …, iₘ]` with index arrays of shape `s`: record `j` of the result is the record at `(i₁[j], …, iₘ[j])`, each index counting
from the end of its own axis when negative. -/
theorem getitem_arrays {b s : List Nat} {c : Cls α} {x : Tree α} (h : Conf b c x) {cols : List (List Int)} (hm : cols.length ≤ b.length) :
    ∃ z, getitem x (.adv s cols) = some z ∧ Conf (s ++ b.drop cols.length) c z ∧
      ∀ j t, InB s j → t.length = cols.length →
        (∀ (k : Nat) (v : List Int) (n : Nat), cols[k]? = some v → b[k]? = some n → ∃ i : Int, v[ravel s j]? = some i ∧ -(n : Int) ≤ i ∧ i < n ∧
          t[k]? = some (if i < 0 then (i + n).toNat else i.toNat)) → item j z = item t x := by
  obtain ⟨z, hz, hc, hi⟩ := getitem_records h (I := .adv s cols) (R := ⟨s, cols.length, fun j =>
    (List.range cols.length).map fun k => wrapIdx (b.getD k 0) ((cols.getD k []).getD (ravel s j) 0)⟩) (by simp [resolve, hm])
  refine ⟨z, hz, hc, fun j t hj ht hk => ?_⟩
  have hsrc : ((List.range cols.length).map fun k => wrapIdx (b.getD k 0) ((cols.getD k []).getD (ravel s j) 0)) = t.map Int.ofNat ∧
      ∀ k, k < cols.length → ∀ n, b[k]? = some n → t.getD k 0 < n := by
    constructor
    · apply List.ext_getElem?
      intro k
      rw [List.getElem?_map, List.getElem?_map]
      by_cases hkl : k < cols.length
      · obtain ⟨v, hv⟩ : ∃ v, cols[k]? = some v := ⟨_, List.getElem?_eq_getElem hkl⟩
        obtain ⟨n, hn⟩ : ∃ n, b[k]? = some n := ⟨_, List.getElem?_eq_getElem (by omega)⟩
        obtain ⟨i, h1, h2, h3, h4⟩ := hk k v n hv hn
        rw [List.getElem?_range hkl, h4]
        simp only [Option.map_some, List.getD_eq_getElem?_getD, hv, hn, h1, Option.getD_some]
        congr 1
        unfold wrapIdx
        by_cases hneg : i < 0
        · rw [if_pos hneg, if_pos hneg]
          show i + n = ((i + n).toNat : Int)
          omega
        · rw [if_neg hneg, if_neg hneg]
          show i = (i.toNat : Int)
          omega
      · rw [List.getElem?_eq_none (by simpa using hkl), List.getElem?_eq_none (by omega)]
        rfl
    · intro k hkl n hn
      obtain ⟨v, hv⟩ : ∃ v, cols[k]? = some v := ⟨_, List.getElem?_eq_getElem hkl⟩
      obtain ⟨i, h1, h2, h3, h4⟩ := hk k v n hv hn
      rw [List.getD_eq_getElem?_getD, h4, Option.getD_some]
      by_cases hneg : i < 0
      · rw [if_pos hneg]; omega
      · rw [if_neg hneg]; omega
  have hin : InB (b.take cols.length) t ∧ clampIdx b (t.map Int.ofNat) = t := by
    have hlt := hsrc.2
    clear hsrc hk hi hz hc h hj
    generalize cols.length = m at *
    induction m generalizing b t with
    | zero =>
      have : t = [] := List.length_eq_zero_iff.1 ht
      subst this
      exact ⟨by cases b <;> trivial, by cases b <;> rfl⟩
    | succ m ih =>
      cases b with
      | nil => simp at hm
      | cons d b =>
        cases t with
        | nil => simp at ht
        | cons a t =>
          have ha : a < d := hlt 0 (by omega) d rfl
          obtain ⟨e1, e2⟩ := ih (b := b) (t := t) (by simpa using hm) (by simpa using ht) (fun k hk' n hn => hlt (k + 1) (by omega) n hn)
          refine ⟨⟨ha, e1⟩, ?_⟩
          simp only [List.map_cons, clampIdx, e2]
          congr 1
          show (max 0 (min (a : Int) ((d : Int) - 1))).toNat = a
          omega
  have := hi j hj (by simp only [hsrc.1, hin.2]; exact hin.1)
  simp only [hsrc.1, hin.2] at this
  exact this

theorem ofNat_map_inj : ∀ {p q : List Nat}, p.map Int.ofNat = q.map Int.ofNat → p = q
  | [], [], _ => rfl
  | [], _ :: _, h => by simp at h
  | _ :: _, [], h => by simp at h
  | a :: p, b :: q, h => by
    simp only [List.map_cons, List.cons.injEq] at h
    rw [Int.ofNat.inj h.1, ofNat_map_inj h.2]

/-- **C46, updates by mask.**  `x.at[mask].set(v)` for a mask of the batch shape and one value for every true entry: the records at the true positions become the
values, in row-major order; the others keep theirs. -/
theorem at_set_mask {b : List Nat} {c : Cls α} {x v : Tree α} {bits : List Bool} {ord : List String → List (List Nat)} (hb : bits.length = size b)
    {ps : List (List Nat)} (hps : ∀ p, p ∈ ps ↔ InB b p ∧ bits[ravel b p]? = some true) (hsort : (ps.map (ravel b)).Pairwise (· < ·))
    (hx : Conf b c x) (hv : Conf [ps.length] c v) (ho : ∀ p, (ord p).Perm (indices [ps.length])) :
    Conf b c (atSet ord (.mask b bits) [] x v) ∧
      (∀ p, InB b p → bits[ravel b p]? = some false → item p (atSet ord (.mask b bits) [] x v) = item p x) ∧
      ∀ (k : Nat) (p : List Nat), ps[k]? = some p → item p (atSet ord (.mask b bits) [] x v) = item [k] v := by
  obtain ⟨t1, t2⟩ := truePositions_spec hb
  -- the positions are determined
  have he : truePositions b bits = ps := by
    have hm : ∀ l : List (List Nat), (∀ p ∈ l, InB b p) → (l.map (ravel b)).map (unravel b) = l := by
      intro l hl
      rw [List.map_map]
      conv => rhs; rw [← List.map_id l]
      exact List.map_congr_left fun p hp => unravel_ravel (hl p hp)
    rw [← hm (truePositions b bits) (fun p hp => ((t1 p).1 hp).1), ← hm ps (fun p hp => ((hps p).1 hp).1)]
    congr 1
    have hperm : ((truePositions b bits).map (ravel b)).Perm (ps.map (ravel b)) := by
      apply (List.perm_ext_iff_of_nodup (t2.imp fun h => Nat.ne_of_lt h) (hsort.imp fun h => Nat.ne_of_lt h)).2
      intro a
      simp only [List.mem_map, t1, hps]
    exact hperm.eq_of_pairwise (fun a b _ _ h1 h2 => absurd h1 (by omega)) t2 hsort
  obtain ⟨hc, hr⟩ := at_set_records (I := .mask b bits) (R := ⟨[(truePositions b bits).length], b.length,
    fun j => ((truePositions b bits).getD (j.headD 0) []).map Int.ofNat⟩) (ord := ord) hx hv (by simp [resolve, hb])
    (by rw [he]; simp only [List.drop_length, List.append_nil]; exact Bcast.refl _) (by rw [he]; exact ho)
  simp only [he, List.take_length, List.drop_length] at hr
  refine ⟨hc, fun p hp hf => ?_, fun k p hkp => ?_⟩
  · have := (hr p [] hp trivial).1 fun k hk => by
      cases k with
      | nil => exact hk.elim
      | cons q k =>
        have hq : q < ps.length := hk.1
        intro e
        have e := ofNat_map_inj e
        simp only [List.headD_cons, List.getD_eq_getElem?_getD, List.getElem?_eq_getElem hq, Option.getD_some] at e
        have := ((hps p).1 (by rw [← e]; exact List.getElem_mem hq)).2
        rw [hf] at this
        cases this
    simpa using this
  · have hk : k < ps.length := (List.getElem?_eq_some_iff.1 hkp).1
    have hp : InB b p := ((hps p).1 (List.mem_of_getElem? hkp)).1
    have := (hr p [] hp trivial).2 [k] ⟨hk, trivial⟩ (by simp only [List.headD_cons, List.getD_eq_getElem?_getD, hkp, Option.getD_some]) fun k' hk' e => by
      match k', hk' with
      | [q], hk' =>
        have hq : q < ps.length := hk'.1
        have e := ofNat_map_inj e
        simp only [List.headD_cons, List.getD_eq_getElem?_getD, List.getElem?_eq_getElem hq, Option.getD_some] at e
        have hnd : ps.Nodup := by
          have : (ps.map (ravel b)).Nodup := hsort.imp fun h => Nat.ne_of_lt h
          exact List.Pairwise.of_map (ravel b) (fun _ _ h1 h2 => h1 (by rw [h2])) this
        have hkg : ps[k]'hk = p := (List.getElem?_eq_some_iff.1 hkp).2
        have : q = k := (List.getElem_inj hnd).1 (e.trans hkg.symm)
        rw [this]
    simp only [List.append_nil] at this
    rw [this, bcastSrc_self (by exact ⟨hk, trivial⟩)]

/-- Non-vacuity: a mask with two true entries on a batch of shape (2, 2). -/
example : truePositions [2, 2] [false, true, true, false] = [[0, 1], [1, 0]] := by decide +kernel

end SoA
