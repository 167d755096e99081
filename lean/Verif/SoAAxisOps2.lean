import Verif.SoAAxisOps
import Verif.SoAExtra

/-!
# C52: gathering along an axis, broadcasting, tiling, stacking; C53: elementwise operations
-/

namespace NArr

variable {α : Type} [Inhabited α]

/-! ## `take_along_axis` -/

theorem zipWith_bcast_ones {s j : List Nat} (h : s.length ≤ j.length) :
    List.zipWith (fun d k => if d = 1 then 0 else k) (s ++ List.replicate (j.length - s.length) 1) j =
      List.zipWith (fun d k => if d = 1 then 0 else k) s j ++ List.replicate (j.length - s.length) 0 := by
  induction s generalizing j with
  | nil => simpa using zipWith_ones j
  | cons d s ih =>
    cases j with
    | nil => simp at h
    | cons k j =>
      have := ih (j := j) (by simpa using h)
      simp only [List.cons_append, List.zipWith_cons_cons, List.length_cons, Nat.add_sub_add_right]
      rw [this]

theorem size_ones (m : Nat) : size (List.replicate m 1) = 1 := by
  induction m with
  | zero => rfl
  | succ m ih => simp [List.replicate_succ, ih]

theorem ravel_zeros (s : List Nat) (m : Nat) : ravel s (List.replicate m 0) = 0 := by
  induction s generalizing m with
  | nil => rfl
  | cons d s ih =>
    cases m with
    | zero => rfl
    | succ m => simp [List.replicate_succ, ravel, ih]

theorem ravel_ones {s p : List Nat} (h : p.length = s.length) (m : Nat) : ravel (s ++ List.replicate m 1) (p ++ List.replicate m 0) = ravel s p := by
  rw [ravel_append h, size_ones, ravel_zeros, Nat.mul_one, Nat.add_zero]

/-- One field of `take_along_axis`; `si` is the shape of the index array, extended by ones to the batch rank. -/
theorem takeAlong_spec {a : NArr α} {oob : α} {inds : NArr Int} {b r si : List Nat} {k : Nat} (hs : a.shape = b ++ r) (hk : k < b.length)
    (hr : inds.shape.length ≤ b.length) (hsi : si = inds.shape ++ List.replicate (b.length - inds.shape.length) 1)
    (hb : Bcast si (b.set k (si.getD k 0))) :
    ∃ z, SoA.takeAlongLeaf oob inds (k : Int) a = some z ∧ z.Wf ∧ z.shape = b.set k (si.getD k 0) ++ r ∧
      ∀ j, InB (b.set k (si.getD k 0)) j →
        (∀ v : Nat, v < b.getD k 0 →
          wrapIdx (b.getD k 0) (inds.get (List.zipWith (fun d q => if d = 1 then 0 else q) inds.shape j)) = (v : Int) → sub j z = sub (j.set k v) a) ∧
        (¬ (0 ≤ wrapIdx (b.getD k 0) (inds.get (List.zipWith (fun d q => if d = 1 then 0 else q) inds.shape j)) ∧
            wrapIdx (b.getD k 0) (inds.get (List.zipWith (fun d q => if d = 1 then 0 else q) inds.shape j)) < b.getD k 0) →
          sub j z = ofFn r fun _ => oob) := by
  have hd : a.shape.getD k 0 = b.getD k 0 := by rw [hs, getD_append_left' _ hk]
  have hlen : a.shape.length = b.length + r.length := by rw [hs, List.length_append]
  have hsil : si.length = b.length := by rw [hsi]; simp; omega
  have hshape : inds.shape ++ List.replicate (a.shape.length - inds.shape.length) 1 = si ++ List.replicate r.length 1 := by
    rw [hsi, hlen, List.append_assoc, List.replicate_append_replicate]
    congr 2
    omega
  unfold SoA.takeAlongLeaf
  rw [normAxis_nat (by omega), Option.bind_some, if_neg (by omega)]
  dsimp only
  rw [hshape, getD_append_left' _ (by omega), hs, List.set_append_left _ _ hk]
  rw [broadcastTo_eq (a := (⟨si ++ List.replicate r.length 1, inds.data⟩ : NArr Int)) (hb.ones r)]
  refine ⟨_, rfl, ofFn_wf _ _, rfl, fun j hj => ?_⟩
  have hjl : j.length = b.length := by rw [hj.length]; simp
  have hget : ∀ u, InB r u → (⟨si ++ List.replicate r.length 1, inds.data⟩ : NArr Int).get (bcastSrc (si ++ List.replicate r.length 1) (j ++ u)) =
      inds.get (List.zipWith (fun d q => if d = 1 then 0 else q) inds.shape j) := by
    intro u hu
    rw [bcastSrc_ones (by rw [hsil, List.length_set]; omega) hj hu]
    unfold bcastSrc
    rw [hsil, hjl, Nat.sub_self, List.drop_zero]
    unfold get
    congr 1
    have e1 : List.zipWith (fun d k => if d = 1 then 0 else k) si j =
        List.zipWith (fun d q => if d = 1 then 0 else q) inds.shape j ++ List.replicate (b.length - inds.shape.length) 0 := by
      rw [hsi, ← hjl]
      exact zipWith_bcast_ones (by omega)
    simp only
    rw [e1, hsi, List.append_assoc, List.append_assoc, List.replicate_append_replicate, List.replicate_append_replicate]
    exact ravel_ones (by rw [List.length_zipWith]; omega) _
  refine ⟨fun v hv hw => ?_, fun ho => ?_⟩
  · have hin := inB_set_axis hj hv
    unfold takeAlong
    simp only [ofFn_shape]
    rw [sub_ofFn _ hj, sub_eq hs hin]
    refine ofFn_congr fun u hu => ?_
    rw [get_ofFn _ (hj.append hu), hget u hu, hd, hw, if_pos (by omega), List.set_append_left _ _ (by omega)]
    simp
  · unfold takeAlong
    simp only [ofFn_shape]
    rw [sub_ofFn _ hj]
    refine ofFn_congr fun u hu => ?_
    rw [get_ofFn _ (hj.append hu), hget u hu, hd, if_neg ho]

/-! ## `tile` -/

/-- Shape of a tiled batch. -/
def tileShape (b reps : List Nat) : List Nat :=
  List.zipWith (· * ·) (List.replicate (max b.length reps.length - b.length) 1 ++ b) (List.replicate (max b.length reps.length - reps.length) 1 ++ reps)

/-- Position of record `j` of a tiled batch in the batch. -/
def tileSrc (b reps j : List Nat) : List Nat :=
  (List.zipWith (· % ·) j (List.replicate (max b.length reps.length - b.length) 1 ++ b)).drop (max b.length reps.length - b.length)

theorem inB_mod {s t j : List Nat} (hl : s.length = t.length) (h : InB (List.zipWith (· * ·) s t) j) : InB s (List.zipWith (· % ·) j s) := by
  induction s generalizing t j with
  | nil =>
    cases j with
    | nil => trivial
    | cons => simp [InB] at h
  | cons d s ih =>
    cases t with
    | nil => simp at hl
    | cons e t =>
      cases j with
      | nil => simp [InB] at h
      | cons i j =>
        simp only [List.zipWith_cons_cons, InB] at h ⊢
        refine ⟨Nat.mod_lt _ ?_, ih (by simpa using hl) h.2⟩
        rcases Nat.eq_zero_or_pos d with h0 | h0
        · subst h0; simp at h
        · exact h0

theorem zipWith_mul_ones (r : List Nat) : List.zipWith (· * ·) r (List.replicate r.length 1) = r := by
  induction r with
  | nil => rfl
  | cons d r ih => simp [List.replicate_succ, ih]

theorem zipWith_mod_self {r u : List Nat} (h : InB r u) : List.zipWith (· % ·) u r = u := by
  induction r generalizing u with
  | nil =>
    cases u with
    | nil => rfl
    | cons => exact h.elim
  | cons d r ih =>
    cases u with
    | nil => exact h.elim
    | cons i u => rw [List.zipWith_cons_cons, ih h.2, Nat.mod_eq_of_lt h.1]

/-- Repetitions of the batch axes followed by ones for the `m` intrinsic axes. -/
theorem tile_rearranges (m : Nat) (b reps : List Nat) :
    Rearranges (α := α) (fun r => r.length = m) b (tileShape b reps) (tileSrc b reps) fun a => some (tile a (reps ++ List.replicate m 1)) := by
  intro r a hr ha hs
  subst hr
  have e1 : max (b ++ r).length (reps ++ List.replicate r.length 1).length = max b.length reps.length + r.length := by simp
  have e2 : max b.length reps.length + r.length - (b ++ r).length = max b.length reps.length - b.length := by simp only [List.length_append]; omega
  have e3 : max b.length reps.length + r.length - (reps ++ List.replicate r.length 1).length = max b.length reps.length - reps.length := by simp only [List.length_append, List.length_replicate]; omega
  have hl : (List.replicate (max b.length reps.length - b.length) 1 ++ b).length = (List.replicate (max b.length reps.length - reps.length) 1 ++ reps).length := by
    simp; omega
  have hshape : List.zipWith (· * ·) (List.replicate (max b.length reps.length - b.length) 1 ++ (b ++ r))
      (List.replicate (max b.length reps.length - reps.length) 1 ++ (reps ++ List.replicate r.length 1)) = tileShape b reps ++ r := by
    rw [← List.append_assoc, ← List.append_assoc, List.zipWith_append hl, zipWith_mul_ones]
    rfl
  unfold tile
  dsimp only
  rw [hs]
  rw [e1, e2, e3, hshape]
  refine ⟨_, rfl, ofFn_wf _ _, rfl, fun j hj => ?_⟩
  have hm := inB_mod hl hj
  have hin : InB b (tileSrc b reps j) := by
    have := hm.split.2
    rwa [List.length_replicate] at this
  refine ⟨hin, ?_⟩
  rw [sub_ofFn _ hj, sub_eq hs hin]
  refine ofFn_congr fun u hu => ?_
  congr 1
  have hjl : j.length = (List.replicate (max b.length reps.length - b.length) 1 ++ b).length := by
    have := hm.length
    rw [List.length_zipWith] at this
    have h2 := hj.length
    unfold tileShape at h2
    rw [List.length_zipWith] at h2
    omega
  rw [← List.append_assoc, List.zipWith_append hjl, zipWith_mod_self hu, List.drop_append]
  unfold tileSrc
  congr 1
  rw [show max b.length reps.length - b.length - (List.zipWith (· % ·) j (List.replicate (max b.length reps.length - b.length) 1 ++ b)).length = 0 by
    rw [hm.length]; simp]
  rfl

/-! ## Broadcasting several arrays -/

theorem Bcast.iff {s t : List Nat} : Bcast s t ↔ s.length ≤ t.length ∧ ∀ i, i < s.length → s.getD i 0 = t.getD (t.length - s.length + i) 0 ∨ s.getD i 0 = 1 := by
  have key : ∀ s t : List Nat, s.length = t.length → (bcastDims s t = true ↔ ∀ i, i < s.length → s.getD i 0 = t.getD i 0 ∨ s.getD i 0 = 1) := by
    intro s
    induction s with
    | nil => intro t ht; cases t with | nil => simp [bcastDims] | cons => simp at ht
    | cons d s ih =>
      intro t ht
      cases t with
      | nil => simp at ht
      | cons e t =>
        simp only [bcastDims, Bool.and_eq_true, Bool.or_eq_true, beq_iff_eq]
        rw [ih t (by simpa using ht)]
        constructor
        · rintro ⟨h1, h2⟩ i hi
          cases i with
          | zero => simpa using h1
          | succ i => simpa using h2 i (by simpa using hi)
        · intro h
          exact ⟨by simpa using h 0 (by simp), fun i hi => by simpa using h (i + 1) (by simpa using hi)⟩
  unfold Bcast
  constructor
  · rintro ⟨h1, h2⟩
    refine ⟨h1, fun i hi => ?_⟩
    have := (key _ _ (by rw [List.length_drop]; omega)).1 h2 i hi
    rwa [List.getD_eq_getElem?_getD (l := t.drop _), List.getElem?_drop, ← List.getD_eq_getElem?_getD] at this
  · rintro ⟨h1, h2⟩
    refine ⟨h1, (key _ _ (by rw [List.length_drop]; omega)).2 fun i hi => ?_⟩
    rw [List.getD_eq_getElem?_getD (l := t.drop _), List.getElem?_drop, ← List.getD_eq_getElem?_getD]
    exact h2 i hi

theorem Bcast.trans {s t u : List Nat} (h : Bcast s t) (h' : Bcast t u) : Bcast s u := by
  rw [Bcast.iff] at *
  refine ⟨by omega, fun i hi => ?_⟩
  rcases h.2 i hi with h1 | h1
  · rcases h'.2 (t.length - s.length + i) (by omega) with h2 | h2
    · left
      rw [h1, h2]
      congr 1
      omega
    · right; rw [h1, h2]
  · exact Or.inr h1

theorem foldlM_bcast {ss : List (List Nat)} {s u : List Nat} (h : ss.foldlM SoA.bcast2 s = some u) : Bcast s u ∧ ∀ t ∈ ss, Bcast t u := by
  induction ss generalizing s with
  | nil =>
    rw [List.foldlM_nil] at h
    cases h
    exact ⟨Bcast.refl _, fun _ h => by simp at h⟩
  | cons t ss ih =>
    rw [List.foldlM_cons] at h
    cases hb : SoA.bcast2 s t with
    | none => rw [hb] at h; cases h
    | some v =>
      rw [hb] at h
      obtain ⟨h1, h2⟩ := ih h
      have e1 := SoA.bcast2_bcast hb
      have e2 := SoA.bcast2_bcast ((SoA.bcast2_comm _ _).trans hb)
      refine ⟨e1.trans h1, fun t' ht' => ?_⟩
      rcases List.mem_cons.1 ht' with rfl | ht'
      · exact e2.trans h1
      · exact h2 t' ht'

theorem foldlM_bcast_append (r : List Nat) (ss : List (List Nat)) (s : List Nat) :
    (ss.map (· ++ r)).foldlM SoA.bcast2 (s ++ r) = (ss.foldlM SoA.bcast2 s).map (· ++ r) := by
  induction ss generalizing s with
  | nil => rfl
  | cons t ss ih =>
    rw [List.map_cons, List.foldlM_cons, List.foldlM_cons, SoA.bcast2_append]
    cases SoA.bcast2 s t with
    | none => rfl
    | some v => exact ih v

theorem bcast2_nil (t : List Nat) : SoA.bcast2 [] t = some t := by
  unfold SoA.bcast2
  rw [List.reverse_nil]
  show (SoA.bcastRev [] t.reverse).map List.reverse = some t
  cases h : t.reverse with
  | nil => simp at h; subst h; rfl
  | cons d s =>
    show some (d :: s).reverse = some t
    rw [← h, List.reverse_reverse]

theorem bcastAll_append {ss : List (List Nat)} {u : List Nat} (r : List Nat) (hne : ss ≠ []) (h : bcastAll ss = some u) : bcastAll (ss.map (· ++ r)) = some (u ++ r) := by
  unfold bcastAll at *
  cases ss with
  | nil => exact absurd rfl hne
  | cons s ss =>
    rw [List.foldlM_cons, bcast2_nil] at h
    rw [List.map_cons, List.foldlM_cons, bcast2_nil]
    show (ss.map (· ++ r)).foldlM SoA.bcast2 (s ++ r) = _
    rw [foldlM_bcast_append]
    have h' : ss.foldlM SoA.bcast2 s = some u := h
    rw [h']
    rfl

theorem bcastAll_bcast {ss : List (List Nat)} {u : List Nat} (h : bcastAll ss = some u) : ∀ s ∈ ss, Bcast s u := (foldlM_bcast h).2

/-! ## Entrywise functions -/

theorem entrywise_rows {β γ : Type} [Inhabited β] [Inhabited γ] {f : α → β → γ} {a : NArr α} {a' : NArr β} {b b' r u : List Nat} (hs : a.shape = b ++ r) (hs' : a'.shape = b' ++ r)
    (hu : SoA.bcast2 b b' = some u) :
    ∃ w, entrywise f a a' = some w ∧ w.Wf ∧ w.shape = u ++ r ∧ ∀ j, InB u j → entrywise f (sub (bcastSrc b j) a) (sub (bcastSrc b' j) a') = some (sub j w) := by
  have h1 := SoA.bcast2_bcast hu
  have h2 := SoA.bcast2_bcast ((SoA.bcast2_comm _ _).trans hu)
  unfold entrywise
  rw [hs, hs', SoA.bcast2_append, hu]
  refine ⟨_, rfl, ofFn_wf _ _, rfl, fun j hj => ?_⟩
  have g1 := bcastSrc_inB h1 hj
  have g2 := bcastSrc_inB h2 hj
  rw [sub_shape, sub_shape, hs, hs', drop_of_inB g1, drop_of_inB g2, SoA.bcast2_self, Option.map_some, sub_ofFn _ hj]
  congr 1
  refine ofFn_congr fun i hi => ?_
  rw [bcastSrc_self hi, bcastSrc_append h1.1 hj hi, bcastSrc_append h2.1 hj hi, get_sub hs g1 hi, get_sub hs' g2 hi]

end NArr
