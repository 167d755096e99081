import Verif.SoALaws3
import Verif.SoAAxisOps
import Verif.SoASplit

/-!
# C103: concatenation in steps

Programs build batches piece by piece.  For batches it does not matter how the pieces are grouped, an empty batch changes nothing, and `stack` is `concat` after `expand_dims`
(batch_ops.py:46-93, 190-240); for single records the grouping matters, because `concat` of one single record gives the record itself and not a batch of one.
-/

namespace SoA

open Agg NArr

variable {α : Type} [Inhabited α]

/-! ## Lines of records along an axis -/

/-- The records of `x` along the axis `ax` through the position `j`. -/
def line (ax d : Nat) (j : List Nat) (x : Tree α) : List (Tree α) := (List.range d).map fun p => item (j.set ax p) x

theorem line_length (ax d : Nat) (j : List Nat) (x : Tree α) : (line ax d j x).length = d := by simp [line]

theorem line_get {ax d p : Nat} {j : List Nat} {x : Tree α} (h : p < d) : (line ax d j x)[p]? = some (item (j.set ax p) x) := by
  unfold line
  rw [List.getElem?_map, List.getElem?_range h]
  rfl

/-- Instances are determined by their lines. -/
theorem line_ext {b0 : List Nat} {ax d : Nat} (hax : ax < b0.length) {c : Cls α} {x y : Tree α} (hx : Conf (b0.set ax d) c x) (hy : Conf (b0.set ax d) c y)
    (h : ∀ j, InB (b0.set ax 1) j → line ax d j x = line ax d j y) : x = y := by
  refine conf_ext hx hy fun j hj => ?_
  have h1 := inB_getD (ax := ax) hj (by rw [List.length_set]; exact hax)
  rw [getD_set_eq hax] at h1
  have h0 : InB (b0.set ax 1) (j.set ax 0) := by
    have := inB_set (ax := ax) (d := 1) (i := 0) hj (by omega)
    rwa [List.set_set] at this
  have h2 : (line ax d (j.set ax 0) x)[j.getD ax 0]? = (line ax d (j.set ax 0) y)[j.getD ax 0]? := by rw [h _ h0]
  rw [line_get h1, line_get h1, List.set_set, set_getD_self] at h2
  exact Option.some.inj h2

theorem flatten_get {β : Type} : ∀ (ls : List (List β)) (k q : Nat) (l : List β), ls[k]? = some l → q < l.length →
    ls.flatten[offset (ls.map List.length) k + q]? = l[q]?
  | [], k, q, l, h, _ => by simp at h
  | a :: ls, 0, q, l, h, hq => by
    rw [List.getElem?_cons_zero] at h
    cases h
    simp only [offset, List.take_zero, List.sum_nil, Nat.zero_add, List.flatten_cons]
    rw [List.getElem?_append_left hq]
  | a :: ls, k + 1, q, l, h, hq => by
    rw [List.getElem?_cons_succ] at h
    have := flatten_get ls k q l h hq
    simp only [offset, List.map_cons, List.take_succ_cons, List.sum_cons, List.flatten_cons] at this ⊢
    rw [List.getElem?_append_right (by omega), ← this]
    congr 1
    omega

/-- The parts of a concatenation along `ax`: instances with their lengths along that axis, the other axes as in `b0`. -/
def Parts (b0 : List Nat) (ax : Nat) (c : Cls α) (ps : List (Nat × Tree α)) : Prop := ∀ p ∈ ps, Conf (b0.set ax p.1) c p.2

theorem getD_set_self {b0 : List Nat} {ax d : Nat} (hax : ax < b0.length) : (b0.set ax d).getD ax 0 = d := getD_set_eq hax

/-- What `concat` gives, by lines. -/
theorem concat_lines {b0 : List Nat} {ax : Nat} (hax : ax < b0.length) {c : Cls α} (hne : c ≠ .nil) (hc : c.HasFields) {ps : List (Nat × Tree α)} (hps : ps ≠ [])
    (h : Parts b0 ax c ps) :
    ∃ z, concat c (ps.map (·.2)) (ax : Int) = some z ∧ Conf (b0.set ax (ps.map (·.1)).sum) c z ∧
      ∀ j, InB ((b0.set ax 1)) j → line ax (ps.map (·.1)).sum j z = (ps.map fun p => line ax p.1 j p.2).flatten := by
  obtain ⟨p0, ps', rfl⟩ := List.exists_cons_of_ne_nil hps
  have hconfs : Confs ((p0 :: ps').map fun p => b0.set ax p.1) c ((p0 :: ps').map (·.2)) := by
    refine ⟨by simp, fun k x b hx hb => ?_⟩
    rw [List.getElem?_map] at hx hb
    cases hk : (p0 :: ps')[k]? with
    | none => rw [hk] at hx; cases hx
    | some p =>
      rw [hk] at hx hb
      simp only [Option.map_some, Option.some.injEq] at hx hb
      rw [← hx, ← hb]
      exact h p (List.mem_of_getElem? hk)
  have hD : (((p0 :: ps').map fun p => b0.set ax p.1).map fun b => b.getD ax 0) = (p0 :: ps').map (·.1) := by
    rw [List.map_map]
    exact List.map_congr_left fun p _ => getD_set_self hax
  obtain ⟨z, h1, h2, h3⟩ := concat_records (b0 := b0.set ax p0.1) (ax := ax) hne hc hconfs rfl (by rw [List.length_set]; exact hax) (by
    intro b hb
    obtain ⟨p, _, rfl⟩ := List.mem_map.1 hb
    simp [List.eraseIdx_set_eq])
  rw [hD] at h2 h3
  rw [List.set_set] at h2
  refine ⟨z, h1, h2, fun j hj => ?_⟩
  have hl : (((p0 :: ps').map fun p => line ax p.1 j p.2).map List.length) = (p0 :: ps').map (·.1) := by
    rw [List.map_map]
    exact List.map_congr_left fun p _ => line_length _ _ _ _
  apply List.ext_getElem?
  intro q
  by_cases hq : q < ((p0 :: ps').map (·.1)).sum
  · rw [line_get hq]
    obtain ⟨k, d, i, hk, hi, rfl⟩ := locate_exists hq
    rw [List.getElem?_map] at hk
    cases hk' : (p0 :: ps')[k]? with
    | none => rw [hk'] at hk; cases hk
    | some p =>
      rw [hk'] at hk
      simp only [Option.map_some, Option.some.injEq] at hk
      subst hk
      have := flatten_get ((p0 :: ps').map fun p => line ax p.1 j p.2) k i (line ax p.1 j p.2) (by rw [List.getElem?_map, hk']; rfl) (by rw [line_length]; exact hi)
      rw [hl] at this
      rw [this, line_get hi]
      congr 1
      have hjl : j.length = b0.length := by rw [hj.length, List.length_set]
      have hin : InB (b0.set ax p.1) (j.set ax i) := by
        have := inB_set (ax := ax) hj hi
        rwa [List.set_set] at this
      have h4 := h3 k p.2 (b0.set ax p.1) (j.set ax i) (by rw [List.getElem?_map, hk']; rfl) (by rw [List.getElem?_map, hk']; rfl) hin
      rw [getD_set_eq (by omega), List.set_set] at h4
      exact h4
  · rw [List.getElem?_eq_none (by rw [line_length]; omega), List.getElem?_eq_none (by rw [List.length_flatten, hl]; omega)]

theorem parts_of {b0 : List Nat} {ax : Nat} {c : Cls α} : ∀ {xs : List (Tree α)}, (∀ x ∈ xs, ∃ d, Conf (b0.set ax d) c x) →
    ∃ ps : List (Nat × Tree α), ps.map (·.2) = xs ∧ Parts b0 ax c ps
  | [], _ => ⟨[], rfl, fun p hp => by cases hp⟩
  | x :: xs, h => by
    obtain ⟨d, hd⟩ := h x (by simp)
    obtain ⟨ps, h1, h2⟩ := parts_of (xs := xs) fun y hy => h y (by simp [hy])
    exact ⟨(d, x) :: ps, by simp [h1], fun p hp => by
      rcases List.mem_cons.1 hp with rfl | hp
      · exact hd
      · exact h2 p hp⟩

/-- The groups, concatenated one by one. -/
theorem groups_parts {b0 : List Nat} {ax : Nat} (hax : ax < b0.length) {c : Cls α} (hne : c ≠ .nil) (hc : c.HasFields) : ∀ {pss : List (List (Nat × Tree α))},
    (∀ ps ∈ pss, ps ≠ [] ∧ Parts b0 ax c ps) →
    ∃ qs : List (Nat × Tree α), ((pss.map fun ps => ps.map (·.2)).mapM fun g => concat c g (ax : Int)) = some (qs.map (·.2)) ∧ Parts b0 ax c qs ∧
      qs.length = pss.length ∧ (qs.map (·.1)).sum = (pss.flatten.map (·.1)).sum ∧
      ∀ j, InB (b0.set ax 1) j → (qs.map fun p => line ax p.1 j p.2).flatten = (pss.flatten.map fun p => line ax p.1 j p.2).flatten
  | [], _ => ⟨[], rfl, fun p hp => (by cases hp), rfl, rfl, fun _ _ => rfl⟩
  | ps :: pss, h => by
    obtain ⟨h1, h2⟩ := h ps (by simp)
    obtain ⟨z, e1, e2, e3⟩ := concat_lines hax hne hc h1 h2
    obtain ⟨qs, f1, f2, f3, f4, f5⟩ := groups_parts hax hne hc (pss := pss) fun ps hps => h ps (by simp [hps])
    refine ⟨((ps.map (·.1)).sum, z) :: qs, ?_, ?_, by simp [f3], ?_, ?_⟩
    · rw [List.map_cons, List.mapM_cons, e1, f1]
      rfl
    · intro p hp
      rcases List.mem_cons.1 hp with rfl | hp
      · exact e2
      · exact f2 p hp
    · simp only [List.map_cons, List.sum_cons, f4, List.flatten_cons, List.map_append, List.sum_append]
    · intro j hj
      simp only [List.map_cons, List.flatten_cons, f5 j hj, e3 j hj, List.map_append, List.flatten_append]

/-- **C103.**  Batches may be concatenated in groups: for every nonempty list of nonempty groups of batches that agree off the axis, concatenating the groups and then the results
is concatenating everything at once, and works. -/
theorem concat_groups {b0 : List Nat} {ax : Nat} (hax : ax < b0.length) {c : Cls α} (hne : c ≠ .nil) (hc : c.HasFields) {gs : List (List (Tree α))} (hgs : gs ≠ [])
    (hg : ∀ g ∈ gs, g ≠ [] ∧ ∀ x ∈ g, ∃ d, Conf (b0.set ax d) c x) :
    ∃ z, concat c gs.flatten (ax : Int) = some z ∧ ((gs.mapM fun g => concat c g (ax : Int)).bind fun zs => concat c zs (ax : Int)) = some z := by
  have hch : ∃ pss : List (List (Nat × Tree α)), pss.map (fun ps => ps.map (·.2)) = gs ∧ ∀ ps ∈ pss, ps ≠ [] ∧ Parts b0 ax c ps := by
    clear hgs
    induction gs with
    | nil => exact ⟨[], rfl, fun p hp => (by cases hp)⟩
    | cons g gs ih =>
      obtain ⟨pss, h1, h2⟩ := ih fun g hg' => hg g (by simp [hg'])
      obtain ⟨h3, h4⟩ := hg g (by simp)
      obtain ⟨ps, h5, h6⟩ := parts_of h4
      refine ⟨ps :: pss, by simp [h1, h5], fun p hp => ?_⟩
      rcases List.mem_cons.1 hp with rfl | hp
      · exact ⟨fun e => h3 (by rw [← h5, e]; rfl), h6⟩
      · exact h2 p hp
  obtain ⟨pss, rfl, hpss⟩ := hch
  have hpne : pss ≠ [] := fun e => hgs (by rw [e]; rfl)
  obtain ⟨qs, f1, f2, f3, f4, f5⟩ := groups_parts hax hne hc hpss
  have hflat : (pss.map fun ps => ps.map (·.2)).flatten = pss.flatten.map (·.2) := by rw [List.map_flatten]
  have hfne : pss.flatten ≠ [] := by
    obtain ⟨ps, pss', rfl⟩ := List.exists_cons_of_ne_nil hpne
    have := (hpss ps (by simp)).1
    simp [this]
  have hfp : Parts b0 ax c pss.flatten := fun p hp => by
    obtain ⟨ps, hps, hp⟩ := List.mem_flatten.1 hp
    exact (hpss ps hps).2 p hp
  obtain ⟨z, e1, e2, e3⟩ := concat_lines hax hne hc hfne hfp
  obtain ⟨w, g1, g2, g3⟩ := concat_lines hax hne hc (ps := qs) (by intro e; rw [e] at f3; exact hpne (List.length_eq_zero_iff.1 f3.symm)) f2
  rw [f4] at g2 g3
  refine ⟨z, by rw [hflat]; exact e1, ?_⟩
  rw [f1, Option.bind_some, g1]
  congr 1
  refine line_ext hax g2 e2 fun j hj => ?_
  rw [g3 j hj, e3 j hj, f5 j hj]

/-- **C103.**  An empty batch (length 0 along the axis), at any place, changes nothing. -/
theorem concat_empty {b0 : List Nat} {ax : Nat} (hax : ax < b0.length) {c : Cls α} (hne : c ≠ .nil) (hc : c.HasFields) {xs ys : List (Tree α)} (hxy : xs ++ ys ≠ [])
    (h : ∀ x ∈ xs ++ ys, ∃ d, Conf (b0.set ax d) c x) {e : Tree α} (he : Conf (b0.set ax 0) c e) :
    ∃ z, concat c (xs ++ ys) (ax : Int) = some z ∧ concat c (xs ++ e :: ys) (ax : Int) = some z := by
  obtain ⟨ps, h1, h2⟩ := parts_of (xs := xs) fun x hx => h x (by simp [hx])
  obtain ⟨qs, h3, h4⟩ := parts_of (xs := ys) fun x hx => h x (by simp [hx])
  have hp1 : Parts b0 ax c (ps ++ qs) := fun p hp => (List.mem_append.1 hp).elim (h2 p) (h4 p)
  have hp2 : Parts b0 ax c (ps ++ (0, e) :: qs) := fun p hp => by
    rcases List.mem_append.1 hp with hp | hp
    · exact h2 p hp
    · rcases List.mem_cons.1 hp with rfl | hp
      · exact he
      · exact h4 p hp
  obtain ⟨z, e1, e2, e3⟩ := concat_lines hax hne hc (ps := ps ++ qs) (fun e => hxy (by rw [← h1, ← h3, ← List.map_append, e]; rfl)) hp1
  obtain ⟨w, g1, g2, g3⟩ := concat_lines hax hne hc (ps := ps ++ (0, e) :: qs) (by simp) hp2
  have hsum : ((ps ++ (0, e) :: qs).map (·.1)).sum = ((ps ++ qs).map (·.1)).sum := by simp
  rw [hsum] at g2 g3
  refine ⟨z, by rw [← h1, ← h3, ← List.map_append]; exact e1, ?_⟩
  have : xs ++ e :: ys = (ps ++ (0, e) :: qs).map (·.2) := by simp [h1, h3]
  rw [this, g1]
  congr 1
  refine line_ext hax g2 e2 fun j hj => ?_
  rw [g3 j hj, e3 j hj]
  simp [line]

/-! ## Stacking -/

theorem insert_set {ax p q : Nat} {b : List Nat} (h : ax ≤ b.length) : (b.take ax ++ p :: b.drop ax).set ax q = b.take ax ++ q :: b.drop ax := by
  rw [List.set_append_right _ _ (by simp; omega)]
  congr 1
  rw [List.length_take, Nat.min_eq_left h, Nat.sub_self, List.set_cons_zero]

theorem inB_insert {ax : Nat} : ∀ {b j : List Nat} {n : Nat}, ax ≤ b.length → InB (b.take ax ++ n :: b.drop ax) j →
    ∃ j' p, InB b j' ∧ p < n ∧ j = j'.take ax ++ p :: j'.drop ax := by
  induction ax with
  | zero =>
    intro b j n _ h
    cases j with
    | nil => exact h.elim
    | cons p j => exact ⟨j, p, h.2, h.1, rfl⟩
  | succ ax ih =>
    intro b j n hl h
    cases b with
    | nil => simp at hl
    | cons d b =>
      cases j with
      | nil => exact h.elim
      | cons i j =>
        obtain ⟨j', p, h1, h2, h3⟩ := ih (b := b) (j := j) (n := n) (by simpa using hl) h.2
        exact ⟨i :: j', p, ⟨h.1, h1⟩, h2, by simp [h3]⟩

/-- **C103.**  Stacking is concatenating along a new axis. -/
theorem stack_concat {b : List Nat} {ax : Nat} (hax : ax ≤ b.length) {c : Cls α} (hne : c ≠ .nil) (hc : c.HasFields) {xs : List (Tree α)} (hx : xs ≠ [])
    (h : ∀ x ∈ xs, Conf b c x) :
    ∃ z, stack c xs (ax : Int) = some z ∧ ((xs.mapM fun x => expandDims x (ax : Int)).bind fun ys => concat c ys (ax : Int)) = some z := by
  obtain ⟨z, z1, z2, z3⟩ := stack_records hne hc hx h hax
  have hys : ∃ ys, (xs.mapM fun x => expandDims x (ax : Int)) = some ys ∧ ys.length = xs.length ∧
      ∀ (k : Nat) (x y : Tree α), xs[k]? = some x → ys[k]? = some y → Conf (b.take ax ++ 1 :: b.drop ax) c y ∧ ∀ j, InB b j → item (j.take ax ++ 0 :: j.drop ax) y = item j x := by
    clear z3 z2 z1 z hx
    induction xs with
    | nil => exact ⟨[], rfl, rfl, fun k x y hx => by simp at hx⟩
    | cons x xs ih =>
      obtain ⟨ys, h1, h2, h3⟩ := ih fun x hx => h x (by simp [hx])
      obtain ⟨y, g1, g2, g3⟩ := expand_dims_records (h x (by simp)) hax
      refine ⟨y :: ys, by rw [List.mapM_cons, g1, h1]; rfl, by simp [h2], fun k x' y' hx' hy' => ?_⟩
      cases k with
      | zero =>
        rw [List.getElem?_cons_zero] at hx' hy'
        cases hx'; cases hy'
        exact ⟨g2, g3⟩
      | succ k =>
        rw [List.getElem?_cons_succ] at hx' hy'
        exact h3 k x' y' hx' hy'
  obtain ⟨ys, y1, y2, y3⟩ := hys
  refine ⟨z, z1, ?_⟩
  rw [y1, Option.bind_some]
  have hb0 : ax < (b.take ax ++ 1 :: b.drop ax).length := by simp; omega
  have hyne : ys ≠ [] := fun e => hx (List.length_eq_zero_iff.1 (by rw [← y2, e]; rfl))
  have hxy : ∀ (k : Nat) (y : Tree α), ys[k]? = some y → ∃ x, xs[k]? = some x := by
    intro k y hy
    exact ⟨_, List.getElem?_eq_getElem (by rw [← y2]; exact (List.getElem?_eq_some_iff.1 hy).1)⟩
  have hparts : Parts (b.take ax ++ 1 :: b.drop ax) ax c (ys.map fun y => (1, y)) := by
    intro p hp
    obtain ⟨y, hy, rfl⟩ := List.mem_map.1 hp
    obtain ⟨k, hk⟩ := List.getElem?_of_mem hy
    obtain ⟨x, hxk⟩ := hxy k y hk
    rw [insert_set hax]
    exact (y3 k x y hxk hk).1
  obtain ⟨w, w1, w2, w3⟩ := concat_lines hb0 hne hc (by simpa using hyne) hparts
  have hsum : (((ys.map fun y => (1, y)).map (·.1)) : List Nat).sum = xs.length := by
    rw [List.map_map]
    show (ys.map fun _ => 1).sum = _
    rw [← y2]
    clear y1 y2 y3 hyne hxy hparts w1 w2 w3
    induction ys with
    | nil => rfl
    | cons y ys ih => rw [List.map_cons, List.sum_cons, ih, List.length_cons]; omega
  rw [hsum] at w2 w3
  have hmap : ((ys.map fun y => (1, y)).map (·.2)) = ys := by rw [List.map_map]; exact List.map_id' ys
  rw [hmap] at w1
  rw [w1]
  congr 1
  refine line_ext hb0 w2 (by rw [insert_set hax]; exact z2) fun j hj => ?_
  rw [w3 j hj, List.map_map]
  rw [insert_set hax] at hj
  obtain ⟨j', p, hj', _, rfl⟩ := inB_insert hax hj
  have hj'l : ax ≤ j'.length := by rw [hj'.length]; exact hax
  show (ys.map fun y => line ax 1 _ y).flatten = _
  have hone : (ys.map fun y => line ax 1 (j'.take ax ++ p :: j'.drop ax) y).flatten = ys.map fun y => item (j'.take ax ++ 0 :: j'.drop ax) y := by
    clear y1 y2 y3 hyne hxy hparts w1 w2 w3 hsum hmap
    induction ys with
    | nil => rfl
    | cons y ys ih =>
      rw [List.map_cons, List.flatten_cons, ih, List.map_cons]
      unfold line
      rw [List.range_one, List.map_singleton, insert_set hj'l]
      rfl
  rw [hone]
  apply List.ext_getElem?
  intro k
  rw [List.getElem?_map]
  by_cases hk : k < xs.length
  · rw [line_get hk, insert_set hj'l, List.getElem?_eq_getElem (show k < ys.length by omega), Option.map_some,
      (y3 k xs[k] ys[k] (List.getElem?_eq_getElem hk) (List.getElem?_eq_getElem (by omega))).2 j' hj', z3 k xs[k] j' (List.getElem?_eq_getElem hk) hj']
  · rw [List.getElem?_eq_none (by omega), List.getElem?_eq_none (by rw [line_length]; omega)]
    rfl

/-! ## Single records -/

/-- **C103 (single records).**  Groups of two or more single records may be concatenated first. -/
theorem concat_single_groups {c : Cls α} (hne : c ≠ .nil) (hc : c.HasFields) {gs : List (List (Tree α))} (hgs : gs ≠ [])
    (hg : ∀ g ∈ gs, 2 ≤ g.length ∧ ∀ x ∈ g, Conf [] c x) :
    ∃ z, concat c gs.flatten 0 = some z ∧ ((gs.mapM fun g => concat c g 0).bind fun zs => concat c zs 0) = some z := by
  have hcs : ∀ g : List (Tree α), 2 ≤ g.length → (∀ x ∈ g, Conf [] c x) → ∃ ys, (g.mapM fun x => expandDims x ((0 : Nat) : Int)) = some ys ∧ ys ≠ [] ∧
      (∀ y ∈ ys, Conf [1] c y) ∧ concat c g 0 = concat c ys ((0 : Nat) : Int) := by
    intro g h2 hx
    obtain ⟨z, h1, h3⟩ := stack_concat (b := []) (ax := 0) (Nat.le_refl _) hne hc (xs := g) (fun e => by rw [e] at h2; simp at h2) hx
    cases hm : g.mapM fun x => expandDims x ((0 : Nat) : Int) with
    | none => rw [hm] at h3; cases h3
    | some ys =>
      rw [hm, Option.bind_some] at h3
      refine ⟨ys, rfl, fun e => ?_, ?_, ?_⟩
      · rw [e] at h3; cases h3
      · intro y hy
        obtain ⟨x, hxg, hy⟩ := mapM_mem hm y hy
        obtain ⟨w, e1, e2, _⟩ := expand_dims_records (b := []) (ax := 0) (hx x hxg) (Nat.le_refl _)
        rw [e1] at hy
        cases hy
        exact e2
      · match g, h2 with
        | x :: y :: ys', _ =>
          rw [concat_single hne hc hx 0]
          exact h1.trans h3.symm
  have hall : ∃ yss : List (List (Tree α)), (gs.mapM fun g => concat c g 0) = (yss.mapM fun g => concat c g ((0 : Nat) : Int)) ∧ yss.length = gs.length ∧
      (gs.flatten.mapM fun x => expandDims x ((0 : Nat) : Int)) = some yss.flatten ∧ ∀ g ∈ yss, g ≠ [] ∧ ∀ y ∈ g, Conf [1] c y := by
    clear hgs
    induction gs with
    | nil => exact ⟨[], rfl, rfl, rfl, fun g hg => by cases hg⟩
    | cons g gs ih =>
      obtain ⟨yss, a1, a2, a3, a4⟩ := ih fun g hg' => hg g (by simp [hg'])
      obtain ⟨h2, hx⟩ := hg g (by simp)
      obtain ⟨ys, b1, b2, b3, b4⟩ := hcs g h2 hx
      refine ⟨ys :: yss, by rw [List.mapM_cons, List.mapM_cons, b4, a1], by simp [a2], ?_, fun g hg => ?_⟩
      · rw [List.flatten_cons, List.mapM_append, b1, a3]
        rfl
      · rcases List.mem_cons.1 hg with rfl | hg
        · exact ⟨b2, b3⟩
        · exact a4 g hg
  obtain ⟨yss, a1, a2, a3, a4⟩ := hall
  have hyne : yss ≠ [] := fun e => hgs (List.length_eq_zero_iff.1 (by rw [← a2, e]; rfl))
  obtain ⟨z, z1, z2⟩ := concat_groups (b0 := [1]) (ax := 0) (by simp) hne hc hyne fun g hg => ⟨(a4 g hg).1, fun x hx => ⟨1, (a4 g hg).2 x hx⟩⟩
  refine ⟨z, ?_, by rw [a1]; exact z2⟩
  have hlen : 2 ≤ gs.flatten.length := by
    obtain ⟨g, gs', rfl⟩ := List.exists_cons_of_ne_nil hgs
    have := (hg g (by simp)).1
    simp
    omega
  obtain ⟨ys, b1, _, _, b4⟩ := hcs gs.flatten hlen fun x hx => by
    obtain ⟨g, hgm, hx⟩ := List.mem_flatten.1 hx
    exact (hg g hgm).2 x hx
  rw [a3] at b1
  cases b1
  rw [b4]
  exact z1
where
  mapM_mem {β γ : Type} {f : β → Option γ} : ∀ {l : List β} {ys : List γ}, l.mapM f = some ys → ∀ y ∈ ys, ∃ x ∈ l, f x = some y := by
    intro l
    induction l with
    | nil => intro ys h y hy; rw [List.mapM_nil] at h; cases h; cases hy
    | cons a l ih =>
      intro ys h y hy
      rw [List.mapM_cons] at h
      cases ha : f a with
      | none => rw [ha] at h; cases h
      | some b =>
        rw [ha] at h
        cases hl : l.mapM f with
        | none => rw [hl] at h; cases h
        | some bs =>
          rw [hl] at h
          have h := Option.some.inj h
          subst h
          rcases List.mem_cons.1 hy with rfl | hy
          · exact ⟨a, by simp, ha⟩
          · obtain ⟨x, hx, e⟩ := ih hl y hy
            exact ⟨x, by simp [hx], e⟩

/-- **C103 (negation).**  Adding single records to a batch one at a time fails, for every class: `concat` of three records works, `concat` of the first two gives a batch, and
`concat` of that batch and the third record raises, in either order and along every axis.  And `concat` of one record is not a batch of one. -/
theorem concat_accumulate_false {c : Cls α} (hne : c ≠ .nil) (hc : c.HasFields) {x y z : Tree α} (hx : Conf [] c x) (hy : Conf [] c y) (hz : Conf [] c z) :
    (concat c [x, y, z] 0).isSome = true ∧
    (∃ w, concat c [x, y] 0 = some w ∧ Conf [2] c w ∧ ∀ axis, concat c [w, z] axis = none ∧ concat c [z, w] axis = none) ∧
    concat c [x] 0 = some x ∧ batchShape c x = some (.tup []) := by
  obtain ⟨u, u1, _⟩ := stack_records (ax := 0) hne hc (xs := [x, y, z]) (by simp) (b := []) (by simp [hx, hy, hz]) (Nat.le_refl _)
  obtain ⟨w, w1, w2, _⟩ := stack_records (ax := 0) hne hc (xs := [x, y]) (by simp) (b := []) (by simp [hx, hy]) (Nat.le_refl _)
  refine ⟨?_, ⟨w, ?_, w2, fun axis => ?_⟩, rfl, batchShape_of_conf hne hc hx⟩
  · rw [concat_single hne hc (by simp [hx, hy, hz]) 0, show stack c [x, y, z] 0 = some u from u1]
    rfl
  · rw [concat_single hne hc (by simp [hx, hy]) 0]
    exact w1
  · have h1 := (derived_of_conf hne hc hz).2.2
    have h2 := (derived_of_conf hne hc w2).2.2
    rw [if_pos rfl] at h1
    rw [if_neg (by simp)] at h2
    unfold concat
    simp only [h1, h2, List.mapM_cons, List.mapM_nil, Option.bind_some, Option.bind_eq_bind, Option.pure_def]
    exact ⟨rfl, rfl⟩

/-! ## Concrete cases -/

private def catC : Cls Nat := .leaf "a" [] (fun _ => ⟨[], [0]⟩) (.nested "n" [] (.leaf "v" [2] (fun _ => ⟨[], [0]⟩) .nil) .nil)
private def catX (d : Nat) (s : Nat) : Tree Nat :=
  .leaf "a" ⟨[d], (List.range d).map (· + s)⟩ (.nested "n" (.leaf "v" ⟨[d, 2], (List.range (2 * d)).map (· + 10 * s)⟩ .nil) .nil)
private def catS (s : Nat) : Tree Nat := .leaf "a" ⟨[], [s]⟩ (.nested "n" (.leaf "v" ⟨[2], [s, s + 1]⟩ .nil) .nil)

/-- The hypotheses hold for batches of lengths 2, 1, 0 and 3 of a class with a nested vector field. -/
example : catC ≠ .nil ∧ catC.HasFields ∧ (∀ g ∈ [[catX 2 1], [catX 1 5, catX 0 0, catX 3 7]], g ≠ [] ∧ ∀ x ∈ g, ∃ d, Conf ([9].set 0 d) catC x) ∧
    Conf [] catC (catS 3) := by
  have hx : ∀ d s, Conf ([9].set 0 d) catC (catX d s) := by
    intro d s
    refine ⟨rfl, ⟨by simp [NArr.Wf, size], rfl⟩, rfl, ⟨rfl, ⟨by simp [NArr.Wf, size]; omega, rfl⟩, trivial⟩, trivial⟩
  refine ⟨by simp [catC], by simp [catC, Cls.HasFields], ?_, ?_⟩
  · intro g hg
    simp only [List.mem_cons, List.not_mem_nil, or_false] at hg
    rcases hg with rfl | rfl
    · exact ⟨by simp, fun x hx' => by simp only [List.mem_singleton] at hx'; subst hx'; exact ⟨_, hx _ _⟩⟩
    · refine ⟨by simp, fun x hx' => ?_⟩
      simp only [List.mem_cons, List.not_mem_nil, or_false] at hx'
      rcases hx' with rfl | rfl | rfl <;> exact ⟨_, hx _ _⟩
  · exact ⟨rfl, ⟨by simp [NArr.Wf, size], rfl⟩, rfl, ⟨rfl, ⟨by simp [NArr.Wf, size], rfl⟩, trivial⟩, trivial⟩

example : concat catC [catX 2 1, catX 1 5, catX 0 0, catX 3 7] 0 =
    ([[catX 2 1], [catX 1 5, catX 0 0, catX 3 7]].mapM fun g => concat catC g 0).bind (fun zs => concat catC zs 0) ∧
    (concat catC [catX 2 1, catX 1 5, catX 0 0, catX 3 7] 0).map (fun z => match z with | .leaf _ a _ => a.data | _ => []) = some [1, 2, 5, 7, 8, 9] ∧
    concat catC [catS 1, catS 2, catS 3] 0 ≠ none ∧ (concat catC [catS 1, catS 2] 0).bind (fun w => concat catC [w, catS 3] 0) = none := by decide +kernel

end SoA
