import Verif.SoALaws2
import Verif.SoAPad
import Verif.SoASplit
import Verif.SoAAxisOps

/-!
# C61: operations that undo each other, continued
-/

namespace NArr

variable {α : Type} [Inhabited α]

theorem increasing_range' {f : Nat → Nat} (hf : ∀ a b, a ≤ b → f a ≤ f b) {s m hi : Nat} (h : f (s + m) ≤ hi) :
    increasing (f s) ((List.range' (s + 1) m).map f) hi = true := by
  induction m generalizing s with
  | zero => simpa [increasing] using h
  | succ m ih =>
    simp only [List.range'_succ, List.map_cons, increasing, Bool.and_eq_true, decide_eq_true_eq]
    exact ⟨hf _ _ (by omega), ih (by rw [show s + 1 + m = s + (m + 1) by omega]; exact h)⟩

theorem dropAxes_insert {p q : List Nat} (v : Nat) : dropAxes [p.length] (p ++ v :: q) = p ++ q := by
  have keep : ∀ (l : List Nat) (n : Nat), (∀ i, n ≤ i → i < n + l.length → i ≠ p.length) →
      ((l.zipIdx n).filter fun r => ![p.length].contains r.2).map (·.1) = l := by
    intro l
    induction l with
    | nil => intros; rfl
    | cons a l ih =>
      intro n hn
      have h0 : ¬ n = p.length := hn n (Nat.le_refl _) (by simp)
      rw [List.zipIdx_cons, List.filter_cons_of_pos (by simpa using h0), List.map_cons, ih (n + 1) fun i h1 h2 => hn i (by omega) (by simp; omega)]
  unfold dropAxes
  rw [List.zipIdx_append, List.filter_append, List.map_append, List.zipIdx_cons]
  rw [List.filter_cons_of_neg (by simp), keep p 0 (fun i _ h => by omega), keep q _ (fun i h _ => by omega)]

end NArr

namespace SoA

open Agg NArr

variable {α : Type} [Inhabited α]

/-! ## concat and split -/

theorem offset_mono (dims : List Nat) {a b : Nat} (h : a ≤ b) : offset dims a ≤ offset dims b := by
  unfold offset
  induction dims generalizing a b with
  | nil => simp
  | cons d dims ih =>
    cases a with
    | zero => simp
    | succ a =>
      cases b with
      | zero => omega
      | succ b =>
        simp only [List.take_succ_cons, List.sum_cons]
        have := ih (a := a) (b := b) (by omega)
        omega

theorem offset_succ {dims : List Nat} {k d : Nat} (h : dims[k]? = some d) : offset dims (k + 1) = offset dims k + d := by
  unfold offset
  rw [List.take_add_one, h]
  simp [List.sum_append]

/-- **C61**: splitting a concatenation where its parts were joined gives back the parts. -/
theorem split_concat {bs : List (List Nat)} {b0 : List Nat} {c : Cls α} {xs : List (Tree α)} {ax : Nat} (hne : c ≠ .nil) (hc : c.HasFields)
    (h : Confs bs c xs) (h0 : bs[0]? = some b0) (hax : ax < b0.length) (hb : ∀ b ∈ bs, b.length = b0.length ∧ b.eraseIdx ax = b0.eraseIdx ax) :
    ((concat c xs (ax : Int)).bind fun z => split z (.at ((List.range' 1 (xs.length - 1)).map fun k => ((bs.take k).map fun b => b.getD ax 0).sum)) (ax : Int)) =
      some xs := by
  obtain ⟨z, h1, h2, h3⟩ := concat_records hne hc h h0 hax hb
  rw [h1, Option.bind_some]
  obtain ⟨D, hD⟩ : ∃ D, D = bs.map fun b => b.getD ax 0 := ⟨_, rfl⟩
  rw [← hD] at h2 h3
  have hps : ((List.range' 1 (xs.length - 1)).map fun k => ((bs.take k).map fun b => b.getD ax 0).sum) = (List.range' 1 (xs.length - 1)).map (offset D) := by
    refine List.map_congr_left fun k _ => ?_
    rw [hD, offset, ← List.map_take]
  rw [hps]
  have hpos : 0 < xs.length := by
    rw [h.1]
    exact (List.getElem?_eq_some_iff.1 h0).1
  have hDl : D.length = xs.length := by rw [hD, List.length_map, h.1]
  have hsum : offset D D.length = D.sum := by unfold offset; rw [List.take_length]
  have hd : (b0.set ax D.sum).getD ax 0 = D.sum := getD_set_eq hax
  have hinc : increasing 0 ((List.range' 1 (xs.length - 1)).map (offset D)) ((b0.set ax D.sum).getD ax 0) = true := by
    rw [hd]
    have := increasing_range' (f := offset D) (fun a b => offset_mono D) (s := 0) (m := xs.length - 1) (hi := D.sum)
      (by rw [← hsum]; exact offset_mono D (by omega))
    simpa [offset] using this
  obtain ⟨zs, g1, g2, g3⟩ := split_points_records hne hc h2 (by rw [List.length_set]; exact hax) hinc
  rw [g1]
  congr 1
  have hzl : zs.length = xs.length := by rw [g2]; simp; omega
  apply List.ext_getElem? fun k => ?_
  by_cases hk : k < xs.length
  · have hzk : zs[k]? = some zs[k] := List.getElem?_eq_getElem (by omega)
    have hxk : xs[k]? = some xs[k] := List.getElem?_eq_getElem hk
    have hbk : bs[k]? = some (bs[k]'(by rw [← h.1]; exact hk)) := List.getElem?_eq_getElem _
    generalize zs[k] = w at hzk
    generalize xs[k] = y at hxk
    generalize bs[k]'(by rw [← h.1]; exact hk) = b at hbk
    rw [hzk, hxk]
    congr 1
    have hDk : D[k]? = some (b.getD ax 0) := by rw [hD, List.getElem?_map, hbk]; rfl
    have hcut : cut ((List.range' 1 (xs.length - 1)).map (offset D)) ((b0.set ax D.sum).getD ax 0) k = (offset D k, offset D k + b.getD ax 0) := by
      rw [hd]
      unfold cut
      have e1 : (0 :: (List.range' 1 (xs.length - 1)).map (offset D)) = (List.range xs.length).map (offset D) := by
        rw [show xs.length = xs.length - 1 + 1 by omega, List.range_eq_range', List.range'_succ, List.map_cons]
        simp [offset]
      have e2 : ((List.range' 1 (xs.length - 1)).map (offset D) ++ [D.sum]) = (List.range' 1 xs.length).map (offset D) := by
        rw [show (List.range' 1 xs.length) = List.range' 1 (xs.length - 1) ++ [xs.length] by
          conv_lhs => rw [show xs.length = (xs.length - 1) + 1 by omega]
          rw [List.range'_concat]
          congr 2
          omega]
        rw [List.map_append, List.map_singleton, ← hDl, hsum]
      rw [e1, e2]
      refine Prod.ext ?_ ?_
      · simp only
        rw [List.getD_eq_getElem?_getD, List.getElem?_map, List.getElem?_range hk]
        rfl
      · simp only
        rw [List.getD_eq_getElem?_getD, List.getElem?_map, List.getElem?_range' hk, Option.map_some, Option.getD_some, ← offset_succ hDk]
        congr 1
        omega
    obtain ⟨k1, k2⟩ := g3 k w hzk
    rw [hcut] at k1 k2
    simp only [List.set_set, Nat.add_sub_cancel_left] at k1 k2
    obtain ⟨hbl, hbe⟩ := hb b (List.mem_of_getElem? hbk)
    have hbset : b0.set ax (b.getD ax 0) = b := by
      rw [← set_of_eraseIdx hbl hbe, set_getD_self]
    rw [hbset] at k1 k2
    refine conf_ext k1 (h.2 k y b hxk hbk) fun j hj => ?_
    rw [k2 j hj, ← h3 k y b j hxk hbk hj, Nat.add_comm]
  · rw [List.getElem?_eq_none (by omega), List.getElem?_eq_none (by omega)]

/-! ## expand_dims and squeeze -/

/-- **C61**: a new axis can be squeezed away again. -/
theorem squeeze_expand {b : List Nat} {c : Cls α} {x : Tree α} {ax : Nat} (h : Conf b c x) (hax : ax ≤ b.length) :
    ((expandDims x (ax : Int)).bind fun z => squeeze z (some [(ax : Int)])) = some x := by
  obtain ⟨z, h1, h2, h3⟩ := expand_dims_records h hax
  have hlen : (b.take ax).length = ax := by rw [List.length_take]; omega
  obtain ⟨w, g1, g2, g3⟩ := squeeze_records (ks := [ax]) h2 (by simp; omega) (by simp) (by
    intro k hk
    rw [List.mem_singleton.1 hk, List.getD_eq_getElem?_getD, List.getElem?_append_right (by omega), hlen]
    simp)
  have hd : ∀ l : List Nat, l.length = b.length → ∀ v, dropAxes [ax] (l.take ax ++ v :: l.drop ax) = l := fun l hl v => by
    have := dropAxes_insert (p := l.take ax) (q := l.drop ax) v
    rw [List.length_take, Nat.min_eq_left (by omega), List.take_append_drop] at this
    exact this
  rw [hd b rfl] at g2
  have g1' : squeeze z (some [(ax : Int)]) = some w := g1
  rw [h1, Option.bind_some, g1']
  congr 1
  refine moved_back h g2 (b' := b.take ax ++ 1 :: b.drop ax) (σ := fun j => j.take ax ++ 0 :: j.drop ax) (τ := dropAxes [ax])
    (fun j hj => ⟨?_, h3 j hj⟩) (fun k hk => (g3 k hk).2) fun j hj => hd j hj.length 0
  obtain ⟨i1, i2⟩ := inB_take_drop hj ax
  exact InB.append i1 ⟨by omega, i2⟩

/-! ## roll -/

theorem emod_shift (m n s t : Int) (hn : 0 < n) : ((m + s) % n + t) % n = (m + (s + t)) % n := by
  rw [Int.emod_add_emod, Int.add_assoc]

/-- **C61**: shifts along an axis add up. -/
theorem roll_roll {b : List Nat} {c : Cls α} {x : Tree α} {k : Nat} (s t : Int) (h : Conf b c x) (hk : k < b.length) :
    ((roll x [s] (some [(k : Int)])).bind fun z => roll z [t] (some [(k : Int)])) = roll x [s + t] (some [(k : Int)]) := by
  obtain ⟨z, h1, h2, h3⟩ := roll_one s h hk
  obtain ⟨w, g1, g2, g3⟩ := roll_one t h2 hk
  obtain ⟨v, f1, f2, f3⟩ := roll_one (s + t) h hk
  rw [h1, Option.bind_some, g1, f1]
  congr 1
  refine conf_ext g2 f2 fun j hj => ?_
  have hj0 := inB_getD hj hk
  have hjl : k < j.length := by rw [hj.length]; exact hk
  generalize hn : b.getD k 0 = n at *
  have hn0 : (0 : Int) < n := by omega
  have key : ∀ u : Int, ((u % (n : Int)).toNat : Int) = u % n := fun u => Int.toNat_of_nonneg (Int.emod_nonneg _ (by omega))
  have ltn : ∀ u : Int, (u % (n : Int)).toNat < n := fun u => by
    have := Int.emod_lt_of_pos u hn0
    have := Int.emod_nonneg u (show (n : Int) ≠ 0 by omega)
    omega
  -- the record that ends up at `j`
  let j' := j.set k (((j.getD k 0 : Int) - (s + t)) % (n : Int)).toNat
  have hj' : InB b j' := inB_set_axis (b := b) (d := n) (by rw [← hn, set_getD_self]; exact hj) (by rw [hn]; exact ltn _)
  have hj'k : j'.getD k 0 = (((j.getD k 0 : Int) - (s + t)) % (n : Int)).toNat := getD_set_eq hjl
  have e1 := f3 j' hj'
  rw [hj'k, key] at e1
  have hb1 : ((((j.getD k 0 : Int) - (s + t)) % (n : Int) + (s + t)) % (n : Int)).toNat = j.getD k 0 := by
    rw [Int.emod_add_emod, show (j.getD k 0 : Int) - (s + t) + (s + t) = j.getD k 0 by omega, Int.emod_eq_of_lt (by omega) (by omega)]
    rfl
  rw [hb1, List.set_set, set_getD_self] at e1
  have e2 := h3 j' hj'
  rw [hj'k, key, Int.emod_add_emod, List.set_set] at e2
  have hj2 : InB b (j.set k (((j.getD k 0 : Int) - (s + t) + s) % (n : Int)).toNat) :=
    inB_set_axis (b := b) (d := n) (by rw [← hn, set_getD_self]; exact hj) (by rw [hn]; exact ltn _)
  have e3 := g3 _ hj2
  rw [getD_set_eq hjl, key, Int.emod_add_emod, List.set_set, show (j.getD k 0 : Int) - (s + t) + s + t = j.getD k 0 by omega,
    Int.emod_eq_of_lt (by omega) (by omega)] at e3
  simp only [Int.toNat_natCast] at e3
  rw [set_getD_self] at e3
  rw [e1, e3, e2]

/-- **C61**: rolling back. -/
theorem roll_back {b : List Nat} {c : Cls α} {x : Tree α} {k : Nat} (s : Int) (h : Conf b c x) (hk : k < b.length) :
    ((roll x [s] (some [(k : Int)])).bind fun z => roll z [-s] (some [(k : Int)])) = some x := by
  rw [roll_roll s (-s) h hk, Int.add_right_neg]
  obtain ⟨v, f1, f2, f3⟩ := roll_one 0 h hk
  rw [f1]
  congr 1
  refine conf_ext f2 h fun j hj => ?_
  have hj0 := inB_getD hj hk
  have := f3 j hj
  rw [Int.add_zero, Int.emod_eq_of_lt (by omega) (by omega), Int.toNat_natCast, set_getD_self] at this
  exact this

/-! ## rot90 -/

theorem getD_set2 {l : List Nat} {p q u v : Nat} (hp : p < l.length) (hq : q < l.length) (hpq : p ≠ q) :
    ((l.set p u).set q v).getD p 0 = u ∧ ((l.set p u).set q v).getD q 0 = v ∧ ∀ i, i ≠ p → i ≠ q → ((l.set p u).set q v).getD i 0 = l.getD i 0 :=
  ⟨by rw [getD_set_ne' hpq.symm, getD_set_eq hp], by rw [getD_set_eq (by simpa using hq)], fun i h1 h2 => by
    rw [getD_set_ne' (Ne.symm h2), getD_set_ne' (Ne.symm h1)]⟩

theorem set2_self {l m : List Nat} {p q u v : Nat} (hl : l.length = m.length) (hp : p < l.length) (hq : q < l.length) (hpq : p ≠ q)
    (hu : u = m.getD p 0) (hv : v = m.getD q 0) (hr : ∀ i, i ≠ p → i ≠ q → l.getD i 0 = m.getD i 0) : (l.set p u).set q v = m := by
  obtain ⟨h1, h2, h3⟩ := getD_set2 (u := u) (v := v) hp hq hpq
  refine ext_getD (by simpa using hl) fun i _ => ?_
  by_cases hip : i = p
  · rw [hip, h1, hu]
  · by_cases hiq : i = q
    · rw [hiq, h2, hv]
    · rw [h3 i hip hiq, hr i hip hiq]

/-- **C61**: turning back. -/
theorem rot90_back {b : List Nat} {c : Cls α} {x : Tree α} {p q : Nat} (k : Int) (h : Conf b c x) (hp : p < b.length) (hq : q < b.length) (hpq : p ≠ q) :
    ((rot90 x k (p : Int) (q : Int)).bind fun z => rot90 z (-k) (p : Int) (q : Int)) = some x := by
  obtain ⟨z, h1, h2, h3⟩ := rot90_records k h hp hq hpq
  rw [h1, Option.bind_some]
  by_cases he : k % 2 = 0
  · rw [if_pos he] at h2 h3
    obtain ⟨w, g1, g2, g3⟩ := rot90_records (-k) h2 hp hq hpq
    rw [if_pos (show -k % 2 = 0 by omega)] at g2 g3
    rw [g1]
    congr 1
    refine conf_ext g2 h fun j hj => ?_
    rw [g3 j hj]
    have hpl : p < j.length := by rw [hj.length]; exact hp
    have hql : q < j.length := by rw [hj.length]; exact hq
    by_cases h0 : k % 4 = 0
    · rw [if_pos (show -k % 4 = 0 by omega), h3 j hj, if_pos h0]
    · have h2' : k % 4 = 2 := by omega
      rw [if_neg (show ¬ -k % 4 = 0 by omega), if_neg (show ¬ -k % 4 = 1 by omega), if_pos (show -k % 4 = 2 by omega)]
      have hjp := inB_getD hj hp
      have hjq := inB_getD hj hq
      obtain ⟨s1, s2, s3⟩ := getD_set2 (l := j) (u := b.getD p 0 - 1 - j.getD p 0) (v := b.getD q 0 - 1 - j.getD q 0) hpl hql hpq
      have hin : InB b ((j.set p (b.getD p 0 - 1 - j.getD p 0)).set q (b.getD q 0 - 1 - j.getD q 0)) := by
        have := inB_set (ax := q) (d := b.getD q 0) (i := b.getD q 0 - 1 - j.getD q 0)
          (inB_set (ax := p) (d := b.getD p 0) (i := b.getD p 0 - 1 - j.getD p 0) hj (by omega)) (by omega)
        rwa [set_getD_self, set_getD_self] at this
      rw [h3 _ hin, if_neg h0, if_neg (show ¬ k % 4 = 1 by omega), if_pos h2', s1, s2]
      congr 1
      exact set2_self (by simp) (by simpa using hpl) (by simpa using hql) hpq (by omega) (by omega) s3
  · rw [if_neg he] at h2 h3
    obtain ⟨w, g1, g2, g3⟩ := rot90_records (-k) h2 (by simpa using hp) (by simpa using hq) hpq
    rw [if_neg (show ¬ -k % 2 = 0 by omega), swap_swap hp hq] at g2 g3
    rw [g1]
    congr 1
    refine conf_ext g2 h fun j hj => ?_
    rw [g3 j hj]
    have hpl : p < j.length := by rw [hj.length]; exact hp
    have hql : q < j.length := by rw [hj.length]; exact hq
    have hjp := inB_getD hj hp
    have hjq := inB_getD hj hq
    obtain ⟨b1, b2, _⟩ := getD_set2 (l := b) (u := b.getD q 0) (v := b.getD p 0) hp hq hpq
    rw [b1, b2]
    by_cases h1' : k % 4 = 1
    · rw [if_neg (show ¬ -k % 4 = 0 by omega), if_neg (show ¬ -k % 4 = 1 by omega), if_neg (show ¬ -k % 4 = 2 by omega)]
      obtain ⟨s1, s2, s3⟩ := getD_set2 (l := j) (u := b.getD q 0 - 1 - j.getD q 0) (v := j.getD p 0) hpl hql hpq
      rw [h3 _ (inB_set (inB_set hj (by omega)) (by omega)), if_neg (show ¬ k % 4 = 0 by omega), if_pos h1', s1, s2]
      congr 1
      exact set2_self (by simp) (by simpa using hpl) (by simpa using hql) hpq rfl (by omega) s3
    · rw [if_neg (show ¬ -k % 4 = 0 by omega), if_pos (show -k % 4 = 1 by omega)]
      obtain ⟨s1, s2, s3⟩ := getD_set2 (l := j) (u := j.getD q 0) (v := b.getD p 0 - 1 - j.getD p 0) hpl hql hpq
      rw [h3 _ (inB_set (inB_set hj (by omega)) (by omega)), if_neg (show ¬ k % 4 = 0 by omega), if_neg h1', if_neg (show ¬ k % 4 = 2 by omega), s1, s2]
      congr 1
      exact set2_self (by simp) (by simpa using hpl) (by simpa using hql) hpq (by omega) rfl s3

/-! ## pad -/

/-- **C61**: cutting the padding off gives back what was padded; for either way of padding. -/
theorem pad_crop {b : List Nat} {c : Cls α} {x d : Tree α} {w : PadWidth} {pads : List (Nat × Nat)} {ord : List String → List (List Nat)} {v : Option α}
    (hne : c ≠ .nil) (hc : c.HasFields) (h : Conf b c x) (hb : b ≠ []) (hw : normalizePad w b.length = some (intPads pads)) (hl : pads.length = b.length)
    (hd : defaultInst c (padded b pads) = some d) (ho : ∀ p, (ord p).Perm (indices b)) :
    ((pad c ord x w v).bind fun z => getitem z (.basic (List.zipWith (fun (d : Nat) (p : Nat × Nat) =>
      Basic.slice (some (p.1 : Int)) (some ((p.1 : Int) + d)) none) b pads))) = some x := by
  have hz : ∃ z, pad c ord x w v = some z ∧ Conf (padded b pads) c z ∧ ∀ j, InB b j → item (shift pads j) z = item j x := by
    cases v with
    | none =>
      obtain ⟨z, h1, h2, h3, _⟩ := pad_records hne hc h hb hw hl hd ho
      exact ⟨z, h1, h2, h3⟩
    | some v =>
      obtain ⟨z, h1, h2, h3, _⟩ := pad_const_records (ord := ord) (v := v) hne hc h hb hw hl
      exact ⟨z, h1, h2, h3⟩
  obtain ⟨z, h1, h2, h3⟩ := hz
  obtain ⟨R, r1, r2, r3, r4⟩ := resolve_slices hl
  obtain ⟨y, g1, g2, g3⟩ := getitem_records h2 (I := .basic _) (R := R) r1
  rw [h1, Option.bind_some, g1]
  congr 1
  have hpl := padded_length hl
  rw [r2, r3, List.drop_eq_nil_of_le (by omega), List.append_nil] at g2
  refine conf_ext g2 h fun j hj => ?_
  have hcl : ∀ {s t : List Nat}, InB s t → clampIdx s (t.map Int.ofNat) = t := by
    intro s
    induction s with
    | nil =>
      intro t ht
      cases t with
      | nil => rfl
      | cons => exact ht.elim
    | cons e s ih =>
      intro t ht
      cases t with
      | nil => exact ht.elim
      | cons a t =>
        simp only [List.map_cons, clampIdx]
        rw [ih ht.2]
        congr 1
        have := ht.1
        show (max 0 (min (a : Int) ((e : Int) - 1))).toNat = a
        omega
  have hsh := shift_inB hl hj
  have := g3 j (by rw [r2]; exact hj) (by
    rw [r4 j hj, hcl hsh, r3, List.take_of_length_le (by omega)]
    exact hsh)
  rw [this, r4 j hj, hcl hsh, h3 j hj]

/-! ## where, repeat, slices -/

theorem treeMapM_some_id {β : Type} {f : β → Option β} {x z : Inst β} (h : treeMapM f x = some z) (hf : ∀ v ∈ leaves x, ∀ w, f v = some w → w = v) : z = x := by
  have := treeMapM_map (g := id) (h := id) h fun v hv w hw => hf v hv w hw
  rwa [treeMap_id (f := id) fun _ _ => rfl, treeMap_id (f := id) fun _ _ => rfl] at this

/-- **C61**: choosing between an instance and itself gives the instance, whatever the condition. -/
theorem where_same {b : List Nat} {c : Cls α} {x z : Tree α} {cond : NArr Bool} (h : Conf b c x) (hz : whereInst cond x x = some z) : z = x := by
  unfold whereInst at hz
  rw [zip_self, Option.bind_some] at hz
  rw [treeMapM_treeMap] at hz
  refine treeMapM_some_id hz fun a ha w hw => ?_
  have hwf := (conf_leaves h a ha).1
  unfold whereLeaf at hw
  rw [broadcastTo_self hwf] at hw
  cases hcd : NArr.broadcastTo cond a.shape with
  | none => rw [hcd] at hw; cases hw
  | some cd =>
    rw [hcd] at hw
    simp only [Option.bind_some, Option.map_some, Option.some.injEq] at hw
    rw [← hw]
    unfold whereSame
    conv_rhs => rw [← ofFn_get hwf]
    refine ofFn_congr fun i _ => ?_
    by_cases hb : cd.get i = true
    · rw [if_pos hb]
    · rw [if_neg hb]

/-- **C61**: `x[lo:hi][i]` is `x[lo + i]`. -/
theorem slice_getitem {n lo hi i : Nat} {b : List Nat} {c : Cls α} {x : Tree α} (h : Conf (n :: b) c x) (h1 : lo ≤ hi) (h2 : hi ≤ n) (h3 : i < hi - lo) :
    ((getitem x (.basic [.slice (some (lo : Int)) (some (hi : Int)) none])).bind fun z => getitem z (.basic [.int (i : Int)])) =
      getitem x (.basic [.int ((lo + i : Nat) : Int)]) := by
  obtain ⟨z, g1, g2, g3⟩ := getitem_slice h (sliceList_simple h1 h2)
  rw [g1, Option.bind_some]
  simp only [List.length_map, List.length_range] at g2
  rw [(getitem_clamped g2 (by omega) i).1, (getitem_clamped h (by omega) _).1]
  have e1 : landsAt (hi - lo) (i : Int) = i := by unfold landsAt; omega
  have e2 : landsAt n ((lo + i : Nat) : Int) = lo + i := by unfold landsAt; omega
  rw [e1, e2]
  congr 1
  exact (g3 i (lo + i) (by rw [List.getElem?_map, List.getElem?_range (by omega)]; rfl)).2

/-- **C61**: `x[v][w]` is `x[v[w]]` for index arrays within the batch. -/
theorem gather_gather {n m k : Nat} {b : List Nat} {c : Cls α} {x : Tree α} (h : Conf (n :: b) c x) {v w : List Nat} (hv : v.length = m) (hw : w.length = k)
    (hvn : ∀ i ∈ v, i < n) (hwm : ∀ i ∈ w, i < m) :
    ((getitem x (.adv [m] [v.map Int.ofNat])).bind fun z => getitem z (.adv [k] [w.map Int.ofNat])) =
      getitem x (.adv [k] [(w.map fun i => v.getD i 0).map Int.ofNat]) := by
  have hin : ∀ {l : List Nat} {p : Nat}, (∀ i ∈ l, i < p) → ∀ i ∈ l.map Int.ofNat, -(p : Int) ≤ i ∧ i < p := fun {l p} hl i hi => by
    obtain ⟨a, ha, rfl⟩ := List.mem_map.1 hi
    have := hl a ha
    exact ⟨by simp only [Int.ofNat_eq_natCast]; omega, by simp only [Int.ofNat_eq_natCast]; omega⟩
  have hvw : ∀ i ∈ w.map (fun i => v.getD i 0), i < n := fun i hi => by
    obtain ⟨a, ha, rfl⟩ := List.mem_map.1 hi
    have := hwm a ha
    rw [getD_get (by omega)]
    exact hvn _ (List.getElem_mem _)
  obtain ⟨z, h1, h2, h3⟩ := getitem_array (s := [m]) h (v := v.map Int.ofNat) (by simp [size, hv]) (hin hvn)
  obtain ⟨y, g1, g2, g3⟩ := getitem_array (s := [k]) (n := m) (b := b) h2 (v := w.map Int.ofNat) (by simp [size, hw]) (hin hwm)
  obtain ⟨u, f1, f2, f3⟩ := getitem_array (s := [k]) h (v := (w.map fun i => v.getD i 0).map Int.ofNat) (by simp [size, hw]) (hin hvw)
  rw [h1, Option.bind_some, g1, f1]
  congr 1
  have step : ∀ {p q : Nat} {l : List Nat} {x z : Tree α}, Conf (p :: b) c x → Conf (q :: b) c z →
      (∀ j, InB [q] j → ∀ i, (l.map Int.ofNat)[ravel [q] j]? = some i → item j z = item [if i < 0 then (i + p).toNat else i.toNat] x) →
      l.length = q → (∀ i ∈ l, i < p) → ∀ t t', t < q → InB b t' → item (t :: t') z = item (l.getD t 0 :: t') x := by
    intro p q l x z hx hz hr hl hlp t t' ht ht'
    have hlt : l.getD t 0 < p := by rw [getD_get (by omega)]; exact hlp _ (List.getElem_mem _)
    have := hr [t] ⟨ht, trivial⟩ (l.getD t 0 : Int) (by
      simp only [ravel, size, List.getElem?_map]
      rw [show t * 1 + 0 = t by omega, List.getElem?_eq_getElem (by omega), getD_get (by omega)]
      rfl)
    rw [if_neg (by omega), Int.toNat_natCast] at this
    rw [← item_cons hz ht ht', ← item_cons hx hlt ht', this]
  refine conf_ext g2 f2 fun j hj => ?_
  cases j with
  | nil => exact hj.elim
  | cons t t' =>
    have hwt : w.getD t 0 < m := by
      have : t < w.length := by rw [hw]; exact hj.1
      rw [getD_get this]
      exact hwm _ (List.getElem_mem _)
    rw [step (l := w) h2 g2 g3 hw hwm t t' hj.1 hj.2, step (l := v) h h2 h3 hv hvn _ t' hwt hj.2,
      step (l := w.map fun i => v.getD i 0) h f2 f3 (by simp [hw]) hvw t t' hj.1 hj.2]
    congr 2
    rw [List.getD_eq_getElem?_getD (l := w.map _), List.getElem?_map, List.getElem?_eq_getElem (by rw [hw]; exact hj.1), getD_get (l := w) (by rw [hw]; exact hj.1)]
    rfl

def demoSetX6 : Tree Nat := .leaf "a" ⟨[2, 1], [6, 7]⟩ (.leaf "v" ⟨[2, 1, 2], [12, 13, 14, 15]⟩ .nil)

/-- The hypotheses of the laws are met by a 2×3 batch of records with a scalar and a vector field, and none of the operations is the identity on it. -/
example : Conf [2, 3] demoSetC demo6 ∧ demoSetC.HasFields ∧
    reshape demoSetC demo6 [3, 2] ≠ some demo6 ∧ transposeInst demoSetC demo6 (some [1, 0]) ≠ some demo6 ∧ moveaxis demo6 [0] [1] ≠ some demo6 ∧
    roll demo6 [1] (some [1]) ≠ some demo6 ∧ rot90 demo6 1 0 1 ≠ some demo6 ∧ expandDims demo6 1 ≠ some demo6 ∧
    ((rot90 demo6 1 0 1).bind fun z => rot90 z (-1) 0 1) = some demo6 ∧ ((roll demo6 [1] (some [1])).bind fun z => roll z [-1] (some [1])) = some demo6 ∧
    ((concat demoSetC [demo6, demoSetX6, demo6] 1).bind fun z => split z (.at [3, 4]) 1) = some [demo6, demoSetX6, demo6] := by
  refine ⟨⟨rfl, ⟨rfl, rfl⟩, rfl, ⟨rfl, rfl⟩, trivial⟩, trivial, ?_, ?_, ?_, ?_, ?_, ?_, ?_, ?_, ?_⟩ <;> decide +kernel

end SoA
