import Verif.SoASplit

/-!
# C46: `pad` acts on records
-/

namespace NArr

variable {α : Type} [Inhabited α]

/-- Shape after padding. -/
def padded (b : List Nat) (pads : List (Nat × Nat)) : List Nat := List.zipWith (fun d (p : Nat × Nat) => d + p.1 + p.2) b pads

/-- Where a record goes. -/
def shift (pads : List (Nat × Nat)) (j : List Nat) : List Nat := List.zipWith (fun k (p : Nat × Nat) => k + p.1) j pads

theorem padded_length {b : List Nat} {pads : List (Nat × Nat)} (h : pads.length = b.length) : (padded b pads).length = b.length := by
  simp [padded, h]

theorem shift_inB {b j : List Nat} {pads : List (Nat × Nat)} (h : pads.length = b.length) (hj : InB b j) : InB (padded b pads) (shift pads j) := by
  induction b generalizing j pads with
  | nil =>
    cases j with
    | nil => trivial
    | cons => exact hj.elim
  | cons d b ih =>
    cases j with
    | nil => exact hj.elim
    | cons k j =>
      cases pads with
      | nil => simp at h
      | cons p pads =>
        have := hj.1
        exact ⟨show k + p.1 < d + p.1 + p.2 by omega, ih (by simpa using h) hj.2⟩

theorem shift_inj {b j j' : List Nat} {pads : List (Nat × Nat)} (h : pads.length = b.length) (hj : InB b j) (hj' : InB b j')
    (he : shift pads j = shift pads j') : j = j' := by
  induction b generalizing j j' pads with
  | nil =>
    cases j with
    | nil => cases j' with | nil => rfl | cons => exact hj'.elim
    | cons => exact hj.elim
  | cons d b ih =>
    cases j with
    | nil => exact hj.elim
    | cons k j =>
      cases j' with
      | nil => exact hj'.elim
      | cons k' j' =>
        cases pads with
        | nil => simp at h
        | cons p pads =>
          simp only [shift, List.zipWith_cons_cons, List.cons.injEq] at he
          rw [ih (by simpa using h) hj.2 hj'.2 he.2, show k = k' by omega]

theorem padded_zero {b : List Nat} {pads : List (Nat × Nat)} (h : pads.length = b.length) (h0 : ∀ p ∈ pads, p = (0, 0)) :
    padded b pads = b ∧ ∀ j, InB b j → shift pads j = j := by
  induction b generalizing pads with
  | nil =>
    refine ⟨rfl, fun j hj => ?_⟩
    cases j with
    | nil => rfl
    | cons => exact hj.elim
  | cons d b ih =>
    cases pads with
    | nil => simp at h
    | cons p pads =>
      obtain ⟨h1, h2⟩ := ih (pads := pads) (by simpa using h) fun p hp => h0 p (by simp [hp])
      have hp := h0 p (by simp)
      subst hp
      refine ⟨?_, fun j hj => ?_⟩
      · unfold padded at h1 ⊢
        simp [h1]
      · cases j with
        | nil => exact hj.elim
        | cons k j =>
          have := h2 j hj.2
          unfold shift at this ⊢
          simp [this]

/-- The slices used by `pad` select the block where the records go. -/
theorem resolve_slices {b : List Nat} {pads : List (Nat × Nat)} (h : pads.length = b.length) :
    ∃ R, resolveBasic (List.zipWith (fun (d : Nat) (p : Nat × Nat) => Basic.slice (some (p.1 : Int)) (some ((p.1 : Int) + d)) none) b pads) (padded b pads) = some R ∧
      R.out = b ∧ R.m = b.length ∧ ∀ j, InB b j → R.src j = (shift pads j).map Int.ofNat := by
  induction b generalizing pads with
  | nil =>
    refine ⟨_, rfl, rfl, rfl, fun j hj => ?_⟩
    cases j with
    | nil => rfl
    | cons => exact hj.elim
  | cons d b ih =>
    cases pads with
    | nil => simp at h
    | cons p pads =>
      obtain ⟨R, h1, h2, h3, h4⟩ := ih (pads := pads) (by simpa using h)
      have hsl : sliceList (d + p.1 + p.2) (some (p.1 : Int)) (some ((p.1 : Int) + d)) none = some ((List.range d).map fun k => p.1 + k) := by
        have := sliceList_simple (d := d + p.1 + p.2) (lo := p.1) (hi := p.1 + d) (by omega) (by omega)
        rw [show p.1 + d - p.1 = d by omega] at this
        rw [← this]
        congr 2
      refine ⟨_, by
        simp only [List.zipWith_cons_cons, padded, resolveBasic]
        rw [hsl]
        simp only [Option.bind_some]
        unfold padded at h1
        rw [h1]
        rfl, ?_, ?_, fun j hj => ?_⟩
      · simp [h2]
      · simp [h3]
      · cases j with
        | nil => exact hj.elim
        | cons k j =>
          have hk := hj.1
          simp only [List.headD_cons, List.tail_cons, shift, List.zipWith_cons_cons, List.map_cons]
          have e : ((List.range d).map fun k => p.1 + k).getD k 0 = k + p.1 := by
            rw [List.getD_eq_getElem?_getD, List.getElem?_map, List.getElem?_range hk]
            simp [Nat.add_comm]
          rw [e, h4 j hj.2]
          rfl

/-- The position before padding, when there is one. -/
theorem inRange_unshift {b t : List Nat} {pads : List (Nat × Nat)} (h : pads.length = b.length) (ht : t.length = b.length) :
    inRange b (List.zipWith (fun (k : Nat) (w : Nat × Nat) => (k : Int) - (w.1 : Int)) t pads) = true ↔ ∃ j, InB b j ∧ t = shift pads j := by
  induction b generalizing t pads with
  | nil =>
    cases t with
    | nil => exact ⟨fun _ => ⟨[], trivial, rfl⟩, fun _ => rfl⟩
    | cons => simp at ht
  | cons d b ih =>
    cases t with
    | nil => simp at ht
    | cons k t =>
      cases pads with
      | nil => simp at h
      | cons p pads =>
        simp only [List.zipWith_cons_cons, inRange, Bool.and_eq_true, decide_eq_true_eq]
        rw [ih (by simpa using h) (by simpa using ht)]
        constructor
        · rintro ⟨⟨h1, h2⟩, j, hj, rfl⟩
          exact ⟨(k - p.1) :: j, ⟨by omega, hj⟩, by simp only [shift, List.zipWith_cons_cons]; rw [show k - p.1 + p.1 = k by omega]⟩
        · rintro ⟨j, hj, he⟩
          cases j with
          | nil => exact hj.elim
          | cons i j =>
            simp only [shift, List.zipWith_cons_cons, List.cons.injEq] at he
            have := hj.1
            exact ⟨⟨by omega, by omega⟩, j, hj.2, he.2⟩

theorem unshift_toNat {b j : List Nat} {pads : List (Nat × Nat)} (h : pads.length = b.length) (hj : InB b j) :
    (List.zipWith (fun (k : Nat) (w : Nat × Nat) => (k : Int) - (w.1 : Int)) (shift pads j) pads).map Int.toNat = j := by
  induction b generalizing j pads with
  | nil =>
    cases j with
    | nil => rfl
    | cons => exact hj.elim
  | cons d b ih =>
    cases j with
    | nil => exact hj.elim
    | cons k j =>
      cases pads with
      | nil => simp at h
      | cons p pads =>
        have := ih (pads := pads) (by simpa using h) hj.2
        simp only [shift, List.zipWith_cons_cons, List.map_cons, List.cons.injEq]
        exact ⟨by omega, this⟩

theorem zero_pads {r : List Nat} : List.zipWith (fun d (p : Nat × Nat) => d + p.1 + p.2) r (List.replicate r.length (0, 0)) = r := by
  induction r with
  | nil => rfl
  | cons d r ih => simp [List.replicate_succ, ih]

theorem zero_unshift {r u : List Nat} (h : InB r u) :
    List.zipWith (fun (k : Nat) (w : Nat × Nat) => (k : Int) - (w.1 : Int)) u (List.replicate r.length (0, 0)) = u.map Int.ofNat ∧
    inRange r (u.map Int.ofNat) = true := by
  induction r generalizing u with
  | nil =>
    cases u with
    | nil => exact ⟨rfl, rfl⟩
    | cons => exact h.elim
  | cons d r ih =>
    cases u with
    | nil => exact h.elim
    | cons k u =>
      obtain ⟨h1, h2⟩ := ih h.2
      have := h.1
      constructor
      · simp [List.replicate_succ, h1]
      · simp only [List.map_cons, inRange, h2, Bool.and_true, decide_eq_true_eq]
        exact ⟨Int.natCast_nonneg _, by show (k : Int) < d; omega⟩

theorem inRange_append_split {b r : List Nat} {s s' : List Int} (h : s.length = b.length) : inRange (b ++ r) (s ++ s') = (inRange b s && inRange r s') := by
  induction b generalizing s with
  | nil =>
    cases s with
    | nil => simp [inRange]
    | cons => simp at h
  | cons d b ih =>
    cases s with
    | nil => simp at h
    | cons i s =>
      simp only [List.cons_append, inRange]
      rw [ih (by simpa using h), Bool.and_assoc]

theorem padConst_spec {a : NArr α} {v : α} {b r : List Nat} {pads : List (Nat × Nat)} (hs : a.shape = b ++ r) (h : pads.length = b.length) :
    ∃ z, padConst v a (pads ++ List.replicate (a.shape.length - b.length) (0, 0)) = some z ∧ z.Wf ∧ z.shape = padded b pads ++ r ∧
      (∀ j, InB b j → sub (shift pads j) z = sub j a) ∧
      (∀ t, InB (padded b pads) t → (∀ j, InB b j → t ≠ shift pads j) → sub t z = ofFn r fun _ => v) := by
  have hrl : a.shape.length - b.length = r.length := by rw [hs, List.length_append]; omega
  unfold padConst
  rw [hrl, if_pos (by rw [hs]; simp [h]), hs, List.zipWith_append h.symm, zero_pads]
  refine ⟨_, rfl, ofFn_wf _ _, rfl, fun j hj => ?_, fun t ht hmiss => ?_⟩
  · have hin := shift_inB h hj
    have hl : (shift pads j).length = b.length := by rw [hin.length, padded_length h]
    have hr := (inRange_unshift h hl).2 ⟨j, hj, rfl⟩
    rw [show List.zipWith (fun d (p : Nat × Nat) => d + p.1 + p.2) b pads = padded b pads from rfl, sub_ofFn _ hin, sub_eq hs hj]
    refine ofFn_congr fun u hu => ?_
    obtain ⟨e1, e2⟩ := zero_unshift hu
    dsimp only
    rw [List.zipWith_append (by omega), e1, inRange_append_split (by simp [hl, h]), hr, e2]
    simp only [Bool.and_self, if_true, List.map_append]
    rw [unshift_toNat h hj, List.map_map]
    have : (Int.toNat ∘ Int.ofNat) = id := rfl
    rw [this, List.map_id]
  · have hl : t.length = b.length := by rw [ht.length, padded_length h]
    have hr : ¬ inRange b (List.zipWith (fun (k : Nat) (w : Nat × Nat) => (k : Int) - (w.1 : Int)) t pads) = true := fun hc => by
      obtain ⟨j, hj, e⟩ := (inRange_unshift h hl).1 hc
      exact hmiss j hj e
    rw [show List.zipWith (fun d (p : Nat × Nat) => d + p.1 + p.2) b pads = padded b pads from rfl, sub_ofFn _ ht]
    refine ofFn_congr fun u hu => ?_
    obtain ⟨e1, e2⟩ := zero_unshift hu
    dsimp only
    rw [List.zipWith_append (by omega), e1, inRange_append_split (by simp [hl, h]), if_neg]
    simp only [Bool.and_eq_true, not_and]
    intro hc
    exact absurd hc hr

end NArr

namespace SoA

open Agg NArr

variable {α : Type} [Inhabited α]

/-- The pads as the code's integers. -/
def intPads (pads : List (Nat × Nat)) : List (Int × Int) := pads.map fun p => ((p.1 : Int), (p.2 : Int))

/-- `pad_width`: an integer pads every axis on both sides; a sequence of pairs gives every axis its pair; a sequence of `ndim ≠ 2` integers gives
every axis one number for both sides; **two integers** are always `(before, after)` of the first axis, even when `ndim = 2`. -/
theorem normalizePad_spec (nd : Nat) :
    (∀ n, normalizePad (.int n) nd = some (List.replicate nd (n, n))) ∧
    (∀ l, l.length = nd → l ≠ [] → normalizePad (.pairs l) nd = some l) ∧
    (∀ l, l.length = nd → l ≠ [] → nd ≠ 2 → normalizePad (.ints l) nd = some (l.map fun x => (x, x))) ∧
    (∀ p q, normalizePad (.ints [p, q]) nd = some ((p, q) :: List.replicate (nd - 1) (0, 0))) := by
  refine ⟨fun _ => rfl, fun l h1 h2 => ?_, fun l h1 h2 h3 => ?_, fun _ _ => rfl⟩
  · have h0 : l.length ≠ 0 := fun h => h2 (List.length_eq_zero_iff.1 h)
    simp only [normalizePad]
    rw [if_neg h0, if_neg (by omega)]
  · have h0 : l.length ≠ 0 := fun h => h2 (List.length_eq_zero_iff.1 h)
    simp only [normalizePad]
    rw [if_neg h0, if_neg (by omega), if_neg (by omega)]

theorem intPads_nonneg (pads : List (Nat × Nat)) : (intPads pads).any (fun p => decide (p.1 < 0 ∨ p.2 < 0)) = false := by
  rw [List.any_eq_false]
  intro p hp
  obtain ⟨q, _, rfl⟩ := List.mem_map.1 hp
  simp

theorem intPads_zero {pads : List (Nat × Nat)} : (intPads pads).all (fun p => decide (p.1 = 0 ∧ p.2 = 0)) = true ↔ ∀ p ∈ pads, p = (0, 0) := by
  unfold intPads
  simp only [List.all_map, List.all_eq_true, Function.comp_apply, decide_eq_true_eq]
  constructor
  · intro h p hp
    have := h p hp
    exact Prod.ext (by simpa using this.1) (by simpa using this.2)
  · intro h p hp
    rw [h p hp]
    exact ⟨rfl, rfl⟩

/-- **C46, `pad` with the class default.**  For every batched instance and pads `≥ 0` per axis: the result has the padded batch shape, record `j` of
`x` is at `j` shifted by the leading pads, and every other record is the record of `default(padded shape)` there. -/
theorem pad_records {b : List Nat} {c : Cls α} {x d : Tree α} {w : PadWidth} {pads : List (Nat × Nat)} {ord : List String → List (List Nat)}
    (hne : c ≠ .nil) (hc : c.HasFields) (h : Conf b c x) (hb : b ≠ []) (hw : normalizePad w b.length = some (intPads pads)) (hl : pads.length = b.length)
    (hd : defaultInst c (padded b pads) = some d) (ho : ∀ p, (ord p).Perm (indices b)) :
    ∃ z, pad c ord x w none = some z ∧ Conf (padded b pads) c z ∧ (∀ j, InB b j → item (shift pads j) z = item j x) ∧
      ∀ t, InB (padded b pads) t → (∀ j, InB b j → t ≠ shift pads j) → item t z = item t d := by
  have hdc := default_conf_of_eq hd
  cases b with
  | nil => exact absurd rfl hb
  | cons n b =>
    unfold pad
    rw [batchShape_of_conf hne hc h]
    simp only [Option.bind_some]
    rw [hw]
    simp only [Option.bind_some]
    rw [intPads_nonneg]
    simp only [Bool.false_eq_true, if_false]
    by_cases h0 : ∀ p ∈ pads, p = (0, 0)
    · rw [if_pos (intPads_zero.2 h0)]
      obtain ⟨e1, e2⟩ := padded_zero hl h0
      rw [e1]
      refine ⟨x, rfl, h, fun j hj => by rw [e2 j hj], fun t ht hmiss => ?_⟩
      exact absurd (e2 t ht).symm (hmiss t ht)
    · rw [if_neg fun hh => h0 (intPads_zero.1 hh)]
      have htarget : List.zipWith (fun (d : Nat) (p : Int × Int) => ((d : Int) + p.1 + p.2).toNat) (n :: b) (intPads pads) = padded (n :: b) pads := by
        unfold intPads padded
        rw [List.zipWith_map_right]
        congr 1
      have hslices : List.zipWith (fun (d : Nat) (p : Int × Int) => Basic.slice (some p.1) (some (p.1 + d)) none) (n :: b) (intPads pads) =
          List.zipWith (fun (d : Nat) (p : Nat × Nat) => Basic.slice (some (p.1 : Int)) (some ((p.1 : Int) + d)) none) (n :: b) pads := by
        unfold intPads
        rw [List.zipWith_map_right]
      rw [htarget, hslices, hd]
      obtain ⟨R, h1, h2, h3, h4⟩ := resolve_slices hl
      have hdrop : (padded (n :: b) pads).drop R.m = [] := by rw [h3]; exact List.drop_eq_nil_of_le (by rw [padded_length hl]; exact Nat.le_refl _)
      have htake : (padded (n :: b) pads).take R.m = padded (n :: b) pads := by
        rw [h3]; exact List.take_of_length_le (by rw [padded_length hl]; exact Nat.le_refl _)
      obtain ⟨hzc, hzi⟩ := at_set_records (I := .basic (List.zipWith (fun (d : Nat) (p : Nat × Nat) => Basic.slice (some (p.1 : Int)) (some ((p.1 : Int) + d)) none) (n :: b) pads))
        (R := R) (ord := ord) hdc h h1 (by rw [hdrop, h2, List.append_nil]; exact Bcast.refl _) (by rw [h2]; exact ho)
      rw [htake, hdrop, h2] at hzi
      refine ⟨_, rfl, hzc, fun j hj => ?_, fun t ht hmiss => ?_⟩
      · have := (hzi (shift pads j) [] (shift_inB hl hj) trivial).2 j hj (h4 j hj) fun k' hk' he => by
          rw [h4 k' hk'] at he
          have he' := congrArg (List.map Int.toNat) he
          rw [List.map_map, List.map_map, show (Int.toNat ∘ Int.ofNat) = id from rfl, List.map_id, List.map_id] at he'
          exact shift_inj hl hk' hj he'
        rw [List.append_nil, List.append_nil, bcastSrc_self hj] at this
        exact this
      · have := (hzi t [] ht trivial).1 fun k hk he => by
          rw [h4 k hk] at he
          have he' := congrArg (List.map Int.toNat) he
          rw [List.map_map, List.map_map, show (Int.toNat ∘ Int.ofNat) = id from rfl, List.map_id, List.map_id] at he'
          exact hmiss k hk he'.symm
        rw [List.append_nil] at this
        exact this

/-- **C46, `pad` with `constant_values`.**  As `pad_records`; the added records have the constant in every entry. -/
theorem pad_const_records {b : List Nat} {c : Cls α} {x : Tree α} {w : PadWidth} {pads : List (Nat × Nat)} {ord : List String → List (List Nat)} {v : α}
    (hne : c ≠ .nil) (hc : c.HasFields) (h : Conf b c x) (hb : b ≠ []) (hw : normalizePad w b.length = some (intPads pads)) (hl : pads.length = b.length) :
    ∃ z, pad c ord x w (some v) = some z ∧ Conf (padded b pads) c z ∧ (∀ j, InB b j → item (shift pads j) z = item j x) ∧
      ∀ t, InB (padded b pads) t → (∀ j, InB b j → t ≠ shift pads j) → ∀ a ∈ leaves (item t z), ∀ i, InB a.shape i → a.get i = v := by
  cases b with
  | nil => exact absurd rfl hb
  | cons n b =>
    unfold pad
    rw [batchShape_of_conf hne hc h]
    simp only [Option.bind_some]
    rw [hw]
    simp only [Option.bind_some]
    rw [intPads_nonneg]
    simp only [Bool.false_eq_true, if_false]
    by_cases h0 : ∀ p ∈ pads, p = (0, 0)
    · rw [if_pos (intPads_zero.2 h0)]
      obtain ⟨e1, e2⟩ := padded_zero hl h0
      rw [e1]
      refine ⟨x, rfl, h, fun j hj => by rw [e2 j hj], fun t ht hmiss => ?_⟩
      exact absurd (e2 t ht).symm (hmiss t ht)
    · rw [if_neg fun hh => h0 (intPads_zero.1 hh)]
      have hwid : (intPads pads).map (fun q => (q.1.toNat, q.2.toNat)) = pads := by
        unfold intPads
        rw [List.map_map]
        conv => rhs; rw [← List.map_id pads]
        rfl
      rw [hwid]
      obtain ⟨z, hz, hzc⟩ := mapM_spec (f := fun a => padConst v a (pads ++ List.replicate (a.shape.length - (n :: b).length) (0, 0)))
        (b' := padded (n :: b) pads) h fun r a ha hs => by
          obtain ⟨z, h1, h2, h3, _⟩ := padConst_spec (v := v) hs hl
          exact ⟨z, h1, h2, h3⟩
      refine ⟨z, hz, hzc, fun j hj => mapM_item h hz fun r a w ha hs hw' => ?_, fun t ht hmiss => ?_⟩
      · obtain ⟨z', g1, _, _, g4, _⟩ := padConst_spec (v := v) hs hl
        rw [g1] at hw'
        cases hw'
        exact g4 j hj
      · have : item t z = treeMap (fun a => ofFn (a.shape.drop (n :: b).length) fun _ => v) x := by
          refine treeMapM_map hz fun a ha w hw' => ?_
          obtain ⟨_, r, hs⟩ := conf_leaves h a ha
          obtain ⟨z', g1, _, _, _, g5⟩ := padConst_spec (v := v) hs hl
          rw [g1] at hw'
          cases hw'
          rw [g5 t ht hmiss, hs, List.drop_left]
        rw [this]
        intro a ha i hi
        rw [leaves_treeMap] at ha
        obtain ⟨a', _, rfl⟩ := List.mem_map.1 ha
        exact get_ofFn _ hi

/-- **`pad` of a single record** by `(lo, hi)` gives a batch of `1 + lo + hi` records with the record at position `lo` and default records elsewhere;
without padding the record itself. -/
theorem pad_single {c : Cls α} {x d : Tree α} {w : PadWidth} {lo hi : Nat} {ord : List String → List (List Nat)} (hne : c ≠ .nil) (hc : c.HasFields)
    (h : Conf [] c x) (hw : normalizePad w 1 = some (intPads [(lo, hi)])) (hd : defaultInst c [1 + lo + hi] = some d)
    (ho : ∀ p, (ord p).Perm (indices [])) :
    (lo = 0 ∧ hi = 0 → pad c ord x w none = some x) ∧
    (¬ (lo = 0 ∧ hi = 0) → ∃ z, pad c ord x w none = some z ∧ Conf [1 + lo + hi] c z ∧ item [lo] z = x ∧
      ∀ k, k < 1 + lo + hi → k ≠ lo → item [k] z = item [k] d) := by
  have hdc := default_conf_of_eq hd
  have h0 := intPads_zero (pads := [(lo, hi)])
  unfold pad
  rw [batchShape_of_conf hne hc h]
  simp only [Option.bind_some]
  rw [hw]
  simp only [Option.bind_some]
  rw [intPads_nonneg]
  simp only [Bool.false_eq_true, if_false]
  refine ⟨fun h1 => ?_, fun h1 => ?_⟩
  · rw [if_pos (h0.2 (by simp [h1]))]
  · rw [if_neg fun hh => h1 (by have := h0.1 hh (lo, hi) (by simp); simpa using this)]
    have e1 : (intPads [(lo, hi)]).getD 0 (0, 0) = ((lo : Int), (hi : Int)) := rfl
    rw [e1]
    have e2 : (1 + (lo : Int) + (hi : Int)).toNat = 1 + lo + hi := by omega
    simp only
    rw [e2, hd]
    obtain ⟨g1, g2, g3⟩ := at_set_int (i := (lo : Int)) (ord := ord) hdc h (by omega) (by omega) ho
    rw [if_neg (by omega : ¬ ((lo : Int) < 0))] at g2 g3
    refine ⟨_, rfl, g1, g2, fun k hk hkl => g3 k hk (by simpa using hkl) [] trivial⟩

/-- Negative pads raise. -/
theorem pad_negative_raises {b : List Nat} {c : Cls α} {x : Tree α} {w : PadWidth} {ws : List (Int × Int)} {ord : List String → List (List Nat)} {cv : Option α}
    (hne : c ≠ .nil) (hc : c.HasFields) (h : Conf b c x) (hw : normalizePad w (if b = [] then 1 else b.length) = some ws) (hneg : ∃ p ∈ ws, p.1 < 0 ∨ p.2 < 0) :
    pad c ord x w cv = none := by
  have hany : ws.any (fun p => decide (p.1 < 0 ∨ p.2 < 0)) = true := by
    obtain ⟨p, h1, h2⟩ := hneg
    rw [List.any_eq_true]
    exact ⟨p, h1, by simpa using h2⟩
  unfold pad
  rw [batchShape_of_conf hne hc h]
  cases b with
  | nil =>
    simp only [Option.bind_some]
    simp only [if_true] at hw
    rw [hw]
    simp only [Option.bind_some]
    rw [if_pos hany]
  | cons n b =>
    simp only [Option.bind_some]
    simp only [reduceCtorEq, if_false] at hw
    rw [hw]
    simp only [Option.bind_some]
    rw [if_pos hany]

/-- Non-trivial case; and two integers for a batch of shape `(2, 2)` pad the first axis only. -/
example : pad demoSetC (fun _ => [[0], [1]]) demoSetX (.pairs [(1, 0)]) none =
      some (.leaf "a" ⟨[3], [0, 1, 2]⟩ (.leaf "v" ⟨[3, 2], [0, 0, 3, 4, 5, 6]⟩ .nil)) ∧
    pad demoSetC (fun _ => []) demoSetX (.pairs [(1, 0)]) (some 9) = some (.leaf "a" ⟨[3], [9, 1, 2]⟩ (.leaf "v" ⟨[3, 2], [9, 9, 3, 4, 5, 6]⟩ .nil)) ∧
    normalizePad (.ints [1, 3]) 2 = some [(1, 3), (0, 0)] := by
  refine ⟨?_, ?_, ?_⟩ <;> decide +kernel

end SoA
