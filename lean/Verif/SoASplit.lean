import Verif.SoABatch

/-!
# C46: `split`, and `concat` of the parts; negative axes
-/

namespace NArr

variable {α : Type} [Inhabited α]

/-- Start of part `k` when an axis of length `d` is cut at the points `ps`, and its end. -/
def cut (ps : List Nat) (d k : Nat) : Nat × Nat := ((0 :: ps).getD k 0, (ps ++ [d]).getD k 0)

theorem partBounds_length (lo : Nat) (ps : List Nat) (hi : Nat) : (partBounds lo ps hi).length = ps.length + 1 := by
  induction ps generalizing lo with
  | nil => rfl
  | cons p ps ih => simp [partBounds, ih]

theorem partBounds_get {lo hi : Nat} {ps : List Nat} {k : Nat} (h : k ≤ ps.length) :
    (partBounds lo ps hi).getD k (0, 0) = ((lo :: ps).getD k 0, (ps ++ [hi]).getD k 0) := by
  induction ps generalizing lo k with
  | nil =>
    have : k = 0 := by simpa using h
    subst this
    rfl
  | cons p ps ih =>
    cases k with
    | zero => rfl
    | succ k =>
      have := ih (lo := p) (k := k) (by simpa using h)
      simp only [partBounds, List.getD_cons_succ, List.cons_append]
      exact this

theorem increasing_bounds {lo hi : Nat} {ps : List Nat} (h : increasing lo ps hi = true) {k : Nat} (hk : k ≤ ps.length) :
    lo ≤ (lo :: ps).getD k 0 ∧ (lo :: ps).getD k 0 ≤ (ps ++ [hi]).getD k 0 ∧ (ps ++ [hi]).getD k 0 ≤ hi := by
  induction ps generalizing lo k with
  | nil =>
    have : k = 0 := by simpa using hk
    subst this
    simpa [increasing] using h
  | cons p ps ih =>
    simp only [increasing, Bool.and_eq_true, decide_eq_true_eq] at h
    cases k with
    | zero =>
      have := ih h.2 (Nat.zero_le _)
      simp only [List.getD_cons_zero, List.cons_append] at this ⊢
      omega
    | succ k =>
      have := ih h.2 (k := k) (by simpa using hk)
      simp only [List.getD_cons_succ, List.cons_append] at this ⊢
      omega

end NArr

namespace SoA

open Agg NArr

variable {α : Type} [Inhabited α]

theorem leaves_ne_nil {β : Type} {P : List Nat → β → Prop} {e : List Nat} {c : Cls α} {x : Inst β} (hne : c ≠ .nil) (hc : c.HasFields) (h : ConfP P e c x) :
    leaves x ≠ [] := by
  induction c generalizing x e with
  | nil => exact absurd rfl hne
  | leaf n ish f cr ih =>
    cases x with
    | nil => exact h.elim
    | nested => exact h.elim
    | leaf => simp [leaves]
  | nested n ish cs cr ih1 ih2 =>
    cases x with
    | nil => exact h.elim
    | leaf => exact h.elim
    | nested n' s r =>
      have := ih1 hc.1 hc.2.1 h.2.1
      simp [leaves, this]

/-- All forms of `split` at once: the parts are the ranges `bd` of the axis. -/
theorem split_general {b : List Nat} {c : Cls α} {x : Tree α} {ax : Nat} {how : Sections} {bd : List (Nat × Nat)} (hne : c ≠ .nil) (hc : c.HasFields)
    (h : Conf b c x) (hax : ax < b.length) (hbd : ∀ p ∈ bd, p.1 ≤ p.2 ∧ p.2 ≤ b.getD ax 0)
    (hs : ∀ (a : NArr α) r, a.shape = b ++ r → NArr.split a how (ax : Int) = some (bd.map fun p => sliceAxis a ax p.1 p.2)) :
    ∃ zs, split x how (ax : Int) = some zs ∧ zs.length = bd.length ∧ ∀ (k : Nat) (z : Tree α) (p : Nat × Nat), zs[k]? = some z → bd[k]? = some p →
      Conf (b.set ax (p.2 - p.1)) c z ∧ ∀ j, InB (b.set ax (p.2 - p.1)) j → item j z = item (j.set ax (j.getD ax 0 + p.1)) x := by
  obtain ⟨t, ht, htc⟩ := confP_mapM (f := fun a => NArr.split a how (ax : Int))
    (Q := fun r (l : List (NArr α)) => l.length = bd.length ∧ ∀ (k : Nat) (p : Nat × Nat), bd[k]? = some p →
      (l.getD k default).Wf ∧ (l.getD k default).shape = b.set ax (p.2 - p.1) ++ r) h fun r a ha => by
        refine ⟨_, hs a r ha.2, by simp, fun k p hk => ?_⟩
        have hp := hbd p (List.mem_of_getElem? hk)
        obtain ⟨h1, h2, _⟩ := sliceAxis_spec ha.2 hax hp.1 hp.2
        have e : (bd.map fun p => sliceAxis a ax p.1 p.2).getD k default = sliceAxis a ax p.1 p.2 := by
          rw [List.getD_eq_getElem?_getD, List.getElem?_map, hk]; rfl
        rw [e]
        exact ⟨h1, h2⟩
  have hl : ∃ l ls, leaves t = l :: ls ∧ l.length = bd.length := by
    cases hlt : leaves t with
    | nil => exact absurd hlt (leaves_ne_nil hne hc htc)
    | cons l ls =>
      obtain ⟨r, hr⟩ := confP_leaves htc l (by rw [hlt]; simp)
      exact ⟨l, ls, rfl, hr.1⟩
  obtain ⟨l, ls, hl1, hl2⟩ := hl
  refine ⟨(List.range bd.length).map fun k => treeMap (fun parts => parts.getD k default) t, ?_, by simp, fun k z p hz hp => ?_⟩
  · unfold split
    rw [ht]
    simp only [Option.map_some, hl1, hl2]
  · have hk : k < bd.length := (List.getElem?_eq_some_iff.1 hp).1
    rw [List.getElem?_map, List.getElem?_range hk] at hz
    simp only [Option.map_some, Option.some.injEq] at hz
    subst hz
    refine ⟨confP_map htc fun r l hr => hr.2 k p hp, fun j hj => ?_⟩
    unfold item
    rw [treeMap_comp]
    refine treeMapM_map ht fun a ha l hl => ?_
    obtain ⟨_, r, hr⟩ := conf_leaves h a ha
    rw [hs a r hr] at hl
    cases hl
    have e : (bd.map fun p => sliceAxis a ax p.1 p.2).getD k default = sliceAxis a ax p.1 p.2 := by
      rw [List.getD_eq_getElem?_getD, List.getElem?_map, hp]; rfl
    rw [e]
    have hpp := hbd p (List.mem_of_getElem? hp)
    exact ((sliceAxis_spec hr hax hpp.1 hpp.2).2.2 j hj).2

/-- **C46, `split` into `n` sections.**  `n` must divide the length `d` of the axis; part `k` holds the records `k*(d/n) …`. -/
theorem split_sections_records {b : List Nat} {c : Cls α} {x : Tree α} {ax n : Nat} (hne : c ≠ .nil) (hc : c.HasFields) (h : Conf b c x)
    (hax : ax < b.length) (hn : n ≠ 0) (hd : b.getD ax 0 % n = 0) :
    ∃ zs, split x (.sections n) (ax : Int) = some zs ∧ zs.length = n ∧ ∀ (k : Nat) (z : Tree α), zs[k]? = some z →
      Conf (b.set ax (b.getD ax 0 / n)) c z ∧ ∀ j, InB (b.set ax (b.getD ax 0 / n)) j →
        item j z = item (j.set ax (j.getD ax 0 + k * (b.getD ax 0 / n))) x := by
  have hmul : n * (b.getD ax 0 / n) = b.getD ax 0 := by have := Nat.div_add_mod (b.getD ax 0) n; omega
  have hle : ∀ k, k < n → (k + 1) * (b.getD ax 0 / n) ≤ b.getD ax 0 := fun k hk => by
    calc (k + 1) * (b.getD ax 0 / n) ≤ n * (b.getD ax 0 / n) := Nat.mul_le_mul_right _ (by omega)
      _ = _ := hmul
  obtain ⟨zs, h1, h2, h3⟩ := split_general (how := .sections n)
    (bd := (List.range n).map fun k => (k * (b.getD ax 0 / n), (k + 1) * (b.getD ax 0 / n))) hne hc h hax (fun p hp => by
      obtain ⟨k, hk, rfl⟩ := List.mem_map.1 hp
      exact ⟨Nat.mul_le_mul_right _ (by omega), hle k (List.mem_range.1 hk)⟩) fun a r hs => by
      unfold NArr.split
      rw [hs, normAxis_nat (by rw [List.length_append]; omega)]
      simp only [Option.bind_some]
      rw [if_neg hn, getD_append_left' _ hax, if_neg (by omega), List.map_map]
      rfl
  refine ⟨zs, h1, by simpa using h2, fun k z hz => ?_⟩
  have hk : k < n := by have := (List.getElem?_eq_some_iff.1 hz).1; simpa [h2] using this
  have := h3 k z (k * (b.getD ax 0 / n), (k + 1) * (b.getD ax 0 / n)) hz (by rw [List.getElem?_map, List.getElem?_range hk]; rfl)
  have e : (k + 1) * (b.getD ax 0 / n) - k * (b.getD ax 0 / n) = b.getD ax 0 / n := by rw [Nat.succ_mul, Nat.add_sub_cancel_left]
  simp only [e] at this
  exact this

/-- **C46, `split` at points.**  For increasing split points within the axis, part `k` holds the records from point `k-1` up to point `k`. -/
theorem split_points_records {b ps : List Nat} {c : Cls α} {x : Tree α} {ax : Nat} (hne : c ≠ .nil) (hc : c.HasFields) (h : Conf b c x)
    (hax : ax < b.length) (hps : increasing 0 ps (b.getD ax 0) = true) :
    ∃ zs, split x (.at ps) (ax : Int) = some zs ∧ zs.length = ps.length + 1 ∧ ∀ (k : Nat) (z : Tree α), zs[k]? = some z →
      Conf (b.set ax ((cut ps (b.getD ax 0) k).2 - (cut ps (b.getD ax 0) k).1)) c z ∧
      ∀ j, InB (b.set ax ((cut ps (b.getD ax 0) k).2 - (cut ps (b.getD ax 0) k).1)) j →
        item j z = item (j.set ax (j.getD ax 0 + (cut ps (b.getD ax 0) k).1)) x := by
  have hget : ∀ (k : Nat) (p : Nat × Nat), (partBounds 0 ps (b.getD ax 0))[k]? = some p → p = cut ps (b.getD ax 0) k ∧ k ≤ ps.length := fun k p hp => by
    have hk : k < (partBounds 0 ps (b.getD ax 0)).length := (List.getElem?_eq_some_iff.1 hp).1
    rw [partBounds_length] at hk
    have := partBounds_get (lo := 0) (hi := b.getD ax 0) (ps := ps) (k := k) (by omega)
    rw [List.getD_eq_getElem?_getD, hp] at this
    exact ⟨this, by omega⟩
  obtain ⟨zs, h1, h2, h3⟩ := split_general (how := .at ps) (bd := partBounds 0 ps (b.getD ax 0)) hne hc h hax (fun p hp => by
      obtain ⟨k, hk, rfl⟩ := List.getElem_of_mem hp
      obtain ⟨e, hle⟩ := hget k _ (List.getElem?_eq_getElem hk)
      rw [e]
      exact (increasing_bounds hps hle).2) fun a r hs => by
      unfold NArr.split
      rw [hs, normAxis_nat (by rw [List.length_append]; omega)]
      simp only [Option.bind_some]
      rw [getD_append_left' _ hax, if_pos hps]
  rw [partBounds_length] at h2
  refine ⟨zs, h1, h2, fun k z hz => ?_⟩
  have hk : k < (partBounds 0 ps (b.getD ax 0)).length := by rw [partBounds_length]; have := (List.getElem?_eq_some_iff.1 hz).1; omega
  have hp := List.getElem?_eq_getElem hk
  have := h3 k z _ hz hp
  rw [(hget k _ hp).1] at this
  exact this

/-- **`concat` of the sections of `split` gives back the instance.** -/
theorem concat_split {b : List Nat} {c : Cls α} {x : Tree α} {ax n : Nat} (hne : c ≠ .nil) (hc : c.HasFields) (h : Conf b c x)
    (hax : ax < b.length) (hn : n ≠ 0) (hd : b.getD ax 0 % n = 0) :
    ((split x (.sections n) (ax : Int)).bind fun zs => concat c zs (ax : Int)) = some x := by
  obtain ⟨zs, h1, h2, h3⟩ := split_sections_records hne hc h hax hn hd
  have hmul : n * (b.getD ax 0 / n) = b.getD ax 0 := by have := Nat.div_add_mod (b.getD ax 0) n; omega
  generalize hq : b.getD ax 0 / n = q at *
  have hcs : Confs (List.replicate n (b.set ax q)) c zs := by
    refine ⟨by simp [h2], fun k z b' hz hb => ?_⟩
    rw [List.getElem?_replicate] at hb
    split at hb
    · cases hb; exact (h3 k z hz).1
    · cases hb
  have hb0 : (List.replicate n (b.set ax q))[0]? = some (b.set ax q) := by rw [List.getElem?_replicate, if_pos (by omega)]
  have hlen : ax < (b.set ax q).length := by rw [List.length_set]; exact hax
  have hagree : ∀ b' ∈ List.replicate n (b.set ax q), b'.length = (b.set ax q).length ∧ b'.eraseIdx ax = (b.set ax q).eraseIdx ax := fun b' hb' => by
    rw [(List.mem_replicate.1 hb').2]; exact ⟨rfl, rfl⟩
  obtain ⟨z, hz, hzc, hzi⟩ := concat_records hne hc hcs hb0 hlen hagree
  have hdims : (List.replicate n (b.set ax q)).map (fun b => b.getD ax 0) = List.replicate n q := by
    rw [List.map_replicate, getD_set_eq hax]
  have hsum : (List.replicate n q).sum = b.getD ax 0 := by rw [List.sum_replicate_nat, hmul]
  have hoff : ∀ k, k ≤ n → offset (List.replicate n q) k = k * q := fun k hk => by
    unfold offset; rw [List.take_replicate, List.sum_replicate_nat, Nat.min_eq_left hk]
  have hbb : (b.set ax q).set ax (b.getD ax 0) = b := by rw [List.set_set, set_getD_self]
  rw [hdims, hsum, hbb] at hzc
  rw [h1]
  simp only [Option.bind_some]
  rw [hz]
  congr 1
  refine conf_ext hzc h fun j hj => ?_
  have hj' : InB ((b.set ax q).set ax ((List.replicate n (b.set ax q)).map fun b => b.getD ax 0).sum) j := by rw [hdims, hsum, hbb]; exact hj
  obtain ⟨k, b', i, hk, hi, he⟩ := concat_positions hlen hagree hj'
  have hkn : k < n := by have := (List.getElem?_eq_some_iff.1 hk).1; simpa using this
  have hkz : k < zs.length := by omega
  have e1 := hzi k _ b' i (List.getElem?_eq_getElem hkz) hk hi
  rw [← he] at e1
  rw [e1]
  have hb' : b' = b.set ax q := by
    have := List.mem_of_getElem? hk
    exact (List.mem_replicate.1 this).2
  rw [hb'] at hi
  rw [(h3 k _ (List.getElem?_eq_getElem hkz)).2 i hi, he, hdims, hoff k (by omega), Nat.add_comm]

/-! ## Negative axes

`axis` is checked against the batch shape but used on every field: a negative axis counts from the end of the *field*, which is an
intrinsic axis for fields that have one. -/

/-- `concat` of two batches of two records at axis -1 joins the vector field along its own axis: the result is not an instance. -/
theorem concat_negative_axis_false : ∃ z, concat demoSetC [demoSetX, demoSetX] (-1) = some z ∧ batchShape demoSetC z = some .unstr := by
  refine ⟨.leaf "a" ⟨[4], [1, 2, 1, 2]⟩ (.leaf "v" ⟨[2, 4], [3, 4, 3, 4, 5, 6, 5, 6]⟩ .nil), ?_, ?_⟩ <;> decide +kernel

/-- `stack` of two batches of two records at axis -1 gives an instance of batch shape `(2, 2)` without an exception, but its record `(0, 0)` has the
vector made of the first components of both vectors. -/
theorem stack_negative_axis_false :
    let y : Tree Nat := .leaf "a" ⟨[2], [11, 12]⟩ (.leaf "v" ⟨[2, 2], [13, 14, 15, 16]⟩ .nil)
    ∃ z, stack demoSetC [demoSetX, y] (-1) = some z ∧ batchShape demoSetC z = some (.tup [2, 2]) ∧
      item [0, 0] z = .leaf "a" ⟨[], [1]⟩ (.leaf "v" ⟨[2], [3, 13]⟩ .nil) ∧
      item [0] demoSetX = .leaf "a" ⟨[], [1]⟩ (.leaf "v" ⟨[2], [3, 4]⟩ .nil) := by
  refine ⟨.leaf "a" ⟨[2, 2], [1, 11, 2, 12]⟩ (.leaf "v" ⟨[2, 2, 2], [3, 13, 4, 14, 5, 15, 6, 16]⟩ .nil), ?_, ?_, ?_, ?_⟩ <;> decide +kernel

/-- `take` at axis -1 permutes the components of the vectors instead of the records. -/
theorem take_negative_axis_false :
    take 0 demoSetX [2] [1, 0] (-1) = some (.leaf "a" ⟨[2], [2, 1]⟩ (.leaf "v" ⟨[2, 2], [4, 3, 6, 5]⟩ .nil)) := by
  decide +kernel

/-- Non-trivial cases of the theorems. -/
example : concat demoSetC [demoSetX, demoSetX] 0 = some (.leaf "a" ⟨[4], [1, 2, 1, 2]⟩ (.leaf "v" ⟨[4, 2], [3, 4, 5, 6, 3, 4, 5, 6]⟩ .nil)) ∧
    stack demoSetC [demoSetX, demoSetX] 1 = some (.leaf "a" ⟨[2, 2], [1, 1, 2, 2]⟩ (.leaf "v" ⟨[2, 2, 2], [3, 4, 3, 4, 5, 6, 5, 6]⟩ .nil)) ∧
    take 0 demoSetX [3] [1, 0, -1] 0 = some (.leaf "a" ⟨[3], [2, 1, 2]⟩ (.leaf "v" ⟨[3, 2], [5, 6, 3, 4, 5, 6]⟩ .nil)) ∧
    split demoSetX (.sections 2) 0 = some [.leaf "a" ⟨[1], [1]⟩ (.leaf "v" ⟨[1, 2], [3, 4]⟩ .nil), .leaf "a" ⟨[1], [2]⟩ (.leaf "v" ⟨[1, 2], [5, 6]⟩ .nil)] ∧
    demoSetC.HasFields := by
  refine ⟨?_, ?_, ?_, ?_, trivial⟩ <;> decide +kernel

end SoA
