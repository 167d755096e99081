import Verif.SoAAxisOps3
import Verif.SoAExtra
import Verif.SoAReshape
import Mathlib.Data.List.Perm.Subperm

/-!
# C60, C61: iteration, and operations that undo each other
-/

namespace SoA

open Agg NArr

variable {α : Type} [Inhabited α]

/-! ## A move of records and the move back -/

/-- Records are moved by `σ`, then by `τ`, which brings every record back: nothing has changed. -/
theorem moved_back {b b' : List Nat} {c : Cls α} {x y z : Tree α} {σ τ : List Nat → List Nat} (h : Conf b c x) (hz : Conf b c z)
    (h1 : ∀ j, InB b j → InB b' (σ j) ∧ item (σ j) y = item j x) (h2 : ∀ k, InB b' k → item (τ k) z = item k y)
    (hb : ∀ j, InB b j → τ (σ j) = j) : z = x := by
  refine conf_ext hz h fun j hj => ?_
  rw [← (h1 j hj).2, ← h2 _ (h1 j hj).1, hb j hj]

/-! ## reshape and flatten -/

theorem reshape_back {b s : List Nat} {c : Cls α} {x : Tree α} {new : List Int} (hne : c ≠ .nil) (hc : c.HasFields) (h : Conf b c x) (hb : b ≠ [])
    (hs0 : s ≠ []) (hs : inferShape (size b) new = some (s.map Int.ofNat)) :
    ((reshape c x new).bind fun z => reshape c z (b.map Int.ofNat)) = some x := by
  obtain ⟨z, h1, h2, h3, h4⟩ := reshape_records hne hc h hb hs
  have hs' : inferShape (size s) (b.map Int.ofNat) = some (b.map Int.ofNat) := by
    rw [(inferShape_spec (size s)).1, if_pos h3.symm]
  obtain ⟨w, g1, g2, _, g4⟩ := reshape_records hne hc h2 hs0 hs'
  rw [h1, Option.bind_some, g1]
  congr 1
  refine conf_ext g2 h fun j hj => ?_
  have hr : ravel b j < size s := by rw [h3]; exact ravel_lt hj
  have hk := unravel_inB hr
  have hk2 := ravel_unravel hr
  rw [g4 j _ hj hk hk2.symm, h4 _ j hk hj hk2]

/-- Two reshapes in a row are the last of them. -/
theorem reshape_reshape {b s t : List Nat} {c : Cls α} {x : Tree α} {new : List Int} (hne : c ≠ .nil) (hc : c.HasFields) (h : Conf b c x) (hb : b ≠ [])
    (hs0 : s ≠ []) (hs : inferShape (size b) new = some (s.map Int.ofNat)) (ht : size t = size b) :
    ((reshape c x new).bind fun z => reshape c z (t.map Int.ofNat)) = reshape c x (t.map Int.ofNat) := by
  obtain ⟨z, h1, h2, h3, h4⟩ := reshape_records hne hc h hb hs
  have e1 : inferShape (size s) (t.map Int.ofNat) = some (t.map Int.ofNat) := by rw [(inferShape_spec (size s)).1, if_pos (ht.trans h3.symm)]
  have e2 : inferShape (size b) (t.map Int.ofNat) = some (t.map Int.ofNat) := by rw [(inferShape_spec (size b)).1, if_pos ht]
  obtain ⟨w, g1, g2, _, g4⟩ := reshape_records hne hc h2 hs0 e1
  obtain ⟨v, k1, k2, _, k4⟩ := reshape_records hne hc h hb e2
  rw [h1, Option.bind_some, g1, k1]
  congr 1
  refine conf_ext g2 k2 fun j hj => ?_
  have hr : ravel t j < size s := by rw [h3, ← ht]; exact ravel_lt hj
  have hr2 : ravel t j < size b := by rw [← ht]; exact ravel_lt hj
  rw [g4 j _ hj (unravel_inB hr) (ravel_unravel hr).symm, k4 j _ hj (unravel_inB hr2) (ravel_unravel hr2).symm,
    h4 _ _ (unravel_inB hr) (unravel_inB hr2) (by rw [ravel_unravel hr, ravel_unravel hr2])]

/-- **C61**: `flatten` is undone by reshaping to the old batch shape. -/
theorem flatten_back {b : List Nat} {c : Cls α} {x : Tree α} (hne : c ≠ .nil) (hc : c.HasFields) (h : Conf b c x) (hb : b ≠ []) :
    ((flatten c x).bind fun z => reshape c z (b.map Int.ofNat)) = some x := by
  obtain ⟨z, h1, h2, h4⟩ := flatten_records hne hc h hb
  have e : inferShape (size [size b]) (b.map Int.ofNat) = some (b.map Int.ofNat) := by
    rw [(inferShape_spec _).1, if_pos (by simp [size])]
  obtain ⟨w, g1, g2, _, g4⟩ := reshape_records hne hc h2 (by simp) e
  rw [h1, Option.bind_some, g1]
  congr 1
  refine conf_ext g2 h fun j hj => ?_
  rw [g4 j [ravel b j] hj ⟨ravel_lt hj, trivial⟩ (by simp [ravel, size]), h4 j hj]

/-! ## Axis permutations -/

theorem map_getD_perm {p q b : List Nat} {n : Nat} (hb : b.length = n) (hp : p.length = n) (hq : q.length = n)
    (hqn : ∀ i, i < n → q.getD i 0 < n) (hpq : ∀ i, i < n → p.getD (q.getD i 0) 0 = i) :
    (q.map fun ax => (p.map fun ax => b.getD ax 0).getD ax 0) = b := by
  apply ext_getD (by rw [List.length_map, hq, hb])
  intro i hi
  rw [hb] at hi
  have hqi : q[i]? = some (q.getD i 0) := by rw [List.getD_eq_getElem?_getD, List.getElem?_eq_getElem (by omega)]; rfl
  have hpi : p[q.getD i 0]? = some (p.getD (q.getD i 0) 0) := by
    rw [List.getD_eq_getElem?_getD (l := p), List.getElem?_eq_getElem (by have := hqn i hi; omega)]; rfl
  rw [List.getD_eq_getElem?_getD, List.getElem?_map, hqi, Option.map_some, Option.getD_some, List.getD_eq_getElem?_getD (l := p.map _),
    List.getElem?_map, hpi, Option.map_some, Option.getD_some, hpq i hi]

/-- **C61**: transposing with `p` and then with its inverse changes nothing. -/
theorem transpose_back {b p q : List Nat} {c : Cls α} {x : Tree α} (hne : c ≠ .nil) (hc : c.HasFields) (h : Conf b c x)
    (hp : p.Perm (List.range b.length)) (hq : q.Perm (List.range b.length)) (hpq : ∀ i, i < b.length → p.getD (q.getD i 0) 0 = i) :
    ((transposeInst c x (some (p.map Int.ofNat))).bind fun z => transposeInst c z (some (q.map Int.ofNat))) = some x := by
  have hpl : p.length = b.length := by rw [hp.length_eq, List.length_range]
  have hql : q.length = b.length := by rw [hq.length_eq, List.length_range]
  have hqn : ∀ i, i < b.length → q.getD i 0 < b.length := fun i hi => by
    rw [List.getD_eq_getElem?_getD, List.getElem?_eq_getElem (by omega), Option.getD_some]
    exact List.mem_range.1 (hq.mem_iff.1 (List.getElem_mem _))
  obtain ⟨z, h1, h2, h3⟩ := transpose_records (axes := some (p.map Int.ofNat)) hne hc h hp rfl
  have hl : (p.map fun ax => b.getD ax 0).length = b.length := by rw [List.length_map, hpl]
  obtain ⟨w, g1, g2, g3⟩ := transpose_records (axes := some (q.map Int.ofNat)) hne hc h2 (by unfold IsAxisPerm; rw [hl]; exact hq) rfl
  rw [map_getD_perm rfl hpl hql hqn hpq] at g2
  rw [h1, Option.bind_some, g1]
  congr 1
  exact moved_back h g2 (fun j hj => ⟨inB_perm (fun ax ha => List.mem_range.1 (hp.mem_iff.1 ha)) hj, h3 j hj⟩) g3
    fun j hj => map_getD_perm hj.length hpl hql hqn hpq

/-- **C61**: transposing twice without axes changes nothing. -/
theorem transpose_twice {b : List Nat} {c : Cls α} {x : Tree α} (hne : c ≠ .nil) (hc : c.HasFields) (h : Conf b c x) :
    ((transposeInst c x none).bind fun z => transposeInst c z none) = some x := by
  obtain ⟨z, h1, h2, h3⟩ := transpose_default hne hc h
  obtain ⟨w, g1, g2, g3⟩ := transpose_default hne hc h2
  rw [List.reverse_reverse] at g2
  rw [h1, Option.bind_some, g1]
  congr 1
  refine moved_back h g2 (b' := b.reverse) (σ := List.reverse) (τ := List.reverse) (fun j hj => ⟨?_, h3 j hj⟩) g3 fun j _ => List.reverse_reverse j
  rw [inB_iff] at hj ⊢
  rw [List.length_reverse, List.length_reverse]
  refine ⟨hj.1, fun i hi => ?_⟩
  have e : ∀ l : List Nat, l.length = b.length → l.reverse.getD i 0 = l.getD (b.length - 1 - i) 0 := fun l hl => by
    rw [List.getD_eq_getElem?_getD, List.getD_eq_getElem?_getD, List.getElem?_reverse (by omega), hl]
  rw [e j hj.1, e b rfl]
  exact hj.2 _ (by omega)

theorem swap_swap {l : List Nat} {p q : Nat} (hp : p < l.length) (hq : q < l.length) :
    ((((l.set p (l.getD q 0)).set q (l.getD p 0)).set p (((l.set p (l.getD q 0)).set q (l.getD p 0)).getD q 0)).set q
      (((l.set p (l.getD q 0)).set q (l.getD p 0)).getD p 0)) = l := by
  apply ext_getD (by simp)
  intro i hi
  by_cases hpq : p = q
  · subst hpq
    by_cases hip : p = i
    · subst hip; simp [List.getD_eq_getElem?_getD, hp]
    · simp only [List.set_set]; rw [getD_set_ne' hip]
  · rw [getD_set_eq (l := l.set p _) (by simpa using hq), getD_set_ne' (Ne.symm hpq), getD_set_eq hp]
    by_cases hiq : q = i
    · subst hiq; rw [getD_set_eq (by simpa using hq)]
    · rw [getD_set_ne' hiq]
      by_cases hip : p = i
      · subst hip; rw [getD_set_eq (by simpa using hp)]
      · rw [getD_set_ne' hip, getD_set_ne' hiq, getD_set_ne' hip]

/-- **C61**: swapping two axes twice changes nothing. -/
theorem swapaxes_twice {b : List Nat} {c : Cls α} {x : Tree α} {ax1 ax2 : Int} {p q : Nat} (hne : c ≠ .nil) (hc : c.HasFields) (h : Conf b c x)
    (h1 : ax1 = p ∨ ax1 = (p : Int) - b.length) (h2 : ax2 = q ∨ ax2 = (q : Int) - b.length) (hp : p < b.length) (hq : q < b.length) :
    ((swapaxes c x ax1 ax2).bind fun z => swapaxes c z ax1 ax2) = some x := by
  obtain ⟨z, k1, k2, k3⟩ := swapaxes_records hne hc h h1 h2 hp hq
  have hl : ((b.set p (b.getD q 0)).set q (b.getD p 0)).length = b.length := by simp
  obtain ⟨w, g1, g2, g3⟩ := swapaxes_records hne hc k2 (p := p) (q := q) (by rw [hl]; exact h1) (by rw [hl]; exact h2) (by omega) (by omega)
  rw [swap_swap hp hq] at g2
  rw [k1, Option.bind_some, g1]
  congr 1
  refine moved_back h g2 (fun j hj => ⟨?_, k3 j hj⟩) g3 fun j hj => swap_swap (by rw [hj.length]; exact hp) (by rw [hj.length]; exact hq)
  exact inB_set (inB_set hj (inB_getD hj hq)) (inB_getD hj hp)

theorem getD_get {l : List Nat} {i : Nat} (h : i < l.length) : l.getD i 0 = l[i] := by
  rw [List.getD_eq_getElem?_getD, List.getElem?_eq_getElem h, Option.getD_some]

theorem pairwise_filter_get {l : List Nat} {f : Nat → Bool} (h : (l.filter f).Pairwise (· < ·)) {i j : Nat} (hij : i < j) (hj : j < l.length)
    (fi : f (l.getD i 0) = true) (fj : f (l.getD j 0) = true) : l.getD i 0 < l.getD j 0 := by
  rw [List.pairwise_filter] at h
  have := List.pairwise_iff_getElem.1 h i j (by omega) hj hij
  rw [getD_get hj] at fj ⊢
  rw [getD_get (by omega)] at fi ⊢
  exact this fi fj

/-- The order that moves the axes back is the inverse of the order that moved them. -/
theorem movesTo_inverse {n : Nat} {source destination o o' : List Nat} (h : MovesTo n source destination o) (h' : MovesTo n destination source o')
    (hl : source.length = destination.length) (hsb : ∀ s ∈ source, s < n) (hdb : ∀ d ∈ destination, d < n) :
    ∀ i, i < n → o.getD (o'.getD i 0) 0 = i := by
  have hol : o.length = n := by rw [h.perm.length_eq, List.length_range]
  have hol' : o'.length = n := by rw [h'.perm.length_eq, List.length_range]
  have lt : ∀ {o : List Nat}, IsAxisPerm o n → ∀ i, i < n → o.getD i 0 < n := fun {o} hp i hi => by
    have : o.length = n := by rw [hp.length_eq, List.length_range]
    rw [getD_get (by omega)]
    exact List.mem_range.1 (hp.mem_iff.1 (List.getElem_mem _))
  have inj : ∀ {o : List Nat}, IsAxisPerm o n → ∀ i j, i < n → j < n → o.getD i 0 = o.getD j 0 → i = j := fun {o} hp i j hi hj he => by
    have hlen : o.length = n := by rw [hp.length_eq, List.length_range]
    rw [getD_get (by omega), getD_get (by omega)] at he
    have hnd := List.pairwise_iff_getElem.1 (hp.nodup_iff.2 List.nodup_range)
    rcases Nat.lt_trichotomy i j with h1 | h1 | h1
    · exact absurd he (hnd i j _ _ h1)
    · exact h1
    · exact absurd he.symm (hnd j i _ _ h1)
  -- axes that are moved
  have hmv : ∀ i, i ∈ source → o'.getD i 0 ∈ destination ∧ o.getD (o'.getD i 0) 0 = i := fun i hi => by
    obtain ⟨k, hk, rfl⟩ := List.getElem_of_mem hi
    have e1 : source[k]? = some source[k] := List.getElem?_eq_getElem hk
    have e2 : destination[k]? = some destination[k] := List.getElem?_eq_getElem (by omega)
    have a1 := h'.moved k _ _ e2 e1
    have a2 := h.moved k _ _ e1 e2
    rw [List.getD_eq_getElem?_getD, a1, Option.getD_some, List.getD_eq_getElem?_getD, a2]
    exact ⟨List.getElem_mem _, rfl⟩
  -- axes that are not
  have hnd : ∀ i, i < n → i ∉ source → o'.getD i 0 ∉ destination := fun i hi hs hd => by
    obtain ⟨k, hk, he⟩ := List.getElem_of_mem hd
    have e1 : source[k]? = some source[k] := List.getElem?_eq_getElem (by omega)
    have e2 : destination[k]? = some destination[k] := List.getElem?_eq_getElem hk
    have a1 := h'.moved k _ _ e2 e1
    have : o'.getD source[k] 0 = o'.getD i 0 := by rw [List.getD_eq_getElem?_getD, a1, ← he]; rfl
    exact hs (inj h'.perm _ _ (hsb _ (List.getElem_mem _)) hi this ▸ List.getElem_mem _)
  have hns : ∀ i, i < n → i ∉ destination → o.getD i 0 ∉ source := fun i hi hs hd => by
    obtain ⟨k, hk, he⟩ := List.getElem_of_mem hd
    have e1 : source[k]? = some source[k] := List.getElem?_eq_getElem hk
    have e2 : destination[k]? = some destination[k] := List.getElem?_eq_getElem (by omega)
    have a1 := h.moved k _ _ e1 e2
    have : o.getD destination[k] 0 = o.getD i 0 := by rw [List.getD_eq_getElem?_getD, a1, ← he]; rfl
    exact hs (inj h.perm _ _ (hdb _ (List.getElem_mem _)) hi this ▸ List.getElem_mem _)
  let g : Nat → Nat := fun i => o.getD (o'.getD i 0) 0
  have hfix : ∀ i ∈ (List.range n).filter (fun i => !source.contains i), g i = i := by
    have hmem : ∀ i, i ∈ (List.range n).filter (fun i => !source.contains i) ↔ i < n ∧ i ∉ source := fun i => by
      simp [List.mem_filter]
    have hgm : ∀ i, i < n ∧ i ∉ source → g i < n ∧ g i ∉ source := fun i hi =>
      ⟨lt h.perm _ (lt h'.perm _ hi.1), hns _ (lt h'.perm _ hi.1) (hnd i hi.1 hi.2)⟩
    have hmono : ∀ i j, i < j → (i < n ∧ i ∉ source) → (j < n ∧ j ∉ source) → g i < g j := fun i j hij hi hj => by
      have h1 : o'.getD i 0 < o'.getD j 0 := pairwise_filter_get h'.kept hij (by omega) (by simpa using hnd i hi.1 hi.2) (by simpa using hnd j hj.1 hj.2)
      exact pairwise_filter_get h.kept h1 (by rw [hol]; exact lt h'.perm _ hj.1) (by simpa [g] using (hgm i hi).2) (by simpa [g] using (hgm j hj).2)
    generalize hL : (List.range n).filter (fun i => !source.contains i) = L at *
    have hLs : L.Pairwise (· < ·) := by rw [← hL]; exact List.Pairwise.filter _ List.pairwise_lt_range
    have hgs : (L.map g).Pairwise (· < ·) := by
      rw [List.pairwise_map]
      exact hLs.imp_of_mem fun {a b} ha hb hab => hmono a b hab ((hmem a).1 ha) ((hmem b).1 hb)
    have hsub : L.map g ⊆ L := fun y hy => by
      obtain ⟨i, hi, rfl⟩ := List.mem_map.1 hy
      exact (hmem _).2 (hgm i ((hmem i).1 hi))
    have hperm : (L.map g).Perm L :=
      (List.subperm_of_subset (hgs.imp fun h => Nat.ne_of_lt h) hsub).perm_of_length_le (by simp)
    have heq : L.map g = L := hperm.eq_of_pairwise (fun a b _ _ h1 h2 => absurd h1 (Nat.lt_asymm h2)) hgs hLs
    intro i hi
    obtain ⟨k, hk, rfl⟩ := List.getElem_of_mem hi
    have : (L.map g)[k]? = L[k]? := by rw [heq]
    rw [List.getElem?_map, List.getElem?_eq_getElem hk] at this
    simpa using this
  intro i hi
  by_cases hs : i ∈ source
  · exact (hmv i hs).2
  · exact hfix i (by simp [List.mem_filter, hi, hs])

/-- **C61**: moving axes and moving them back changes nothing. -/
theorem moveaxis_back {b source destination : List Nat} {c : Cls α} {x : Tree α} (h : Conf b c x)
    (hl : source.length = destination.length) (hsn : source.Nodup) (hdn : destination.Nodup)
    (hsb : ∀ s ∈ source, s < b.length) (hdb : ∀ d ∈ destination, d < b.length) :
    ((moveaxis x (source.map Int.ofNat) (destination.map Int.ofNat)).bind fun z =>
      moveaxis z (destination.map Int.ofNat) (source.map Int.ofNat)) = some x := by
  obtain ⟨z, o, h1, h2, h3, h4⟩ := moveaxis_records h hl hsn hdn hsb hdb
  have hol : o.length = b.length := by rw [h2.perm.length_eq, List.length_range]
  have hzl : (o.map fun ax => b.getD ax 0).length = b.length := by rw [List.length_map, hol]
  obtain ⟨w, o', g1, g2, g3, g4⟩ := moveaxis_records h3 hl.symm hdn hsn (by rw [hzl]; exact hdb) (by rw [hzl]; exact hsb)
  rw [hzl] at g2
  have hol' : o'.length = b.length := by rw [g2.perm.length_eq, List.length_range]
  have hlt : ∀ {o : List Nat}, IsAxisPerm o b.length → ∀ i, i < b.length → o.getD i 0 < b.length := fun {o} hp i hi => by
    have : o.length = b.length := by rw [hp.length_eq, List.length_range]
    rw [getD_get (by omega)]
    exact List.mem_range.1 (hp.mem_iff.1 (List.getElem_mem _))
  have hinv := movesTo_inverse h2 g2 hl hsb hdb
  rw [map_getD_perm rfl hol hol' (hlt g2.perm) hinv] at g3
  rw [h1, Option.bind_some, g1]
  congr 1
  exact moved_back h g3 (fun j hj => ⟨inB_perm (fun ax ha => List.mem_range.1 (h2.perm.mem_iff.1 ha)) hj, h4 j hj⟩) g4
    fun j hj => map_getD_perm hj.length hol hol' (hlt g2.perm) hinv

end SoA
