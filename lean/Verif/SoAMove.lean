import Verif.SoAAxis

/-!
# C52: `moveaxis`, `squeeze`, `expand_dims` of one array
-/

namespace NArr

variable {α : Type} [Inhabited α]

/-! ## The axis order of `moveaxis` -/

theorem insertIdx_append {l r : List Nat} {i x : Nat} (h : i ≤ l.length) : (l ++ r).insertIdx i x = l.insertIdx i x ++ r := by
  induction l generalizing i with
  | nil =>
    have : i = 0 := by simpa using h
    subst this
    rfl
  | cons a l ih =>
    cases i with
    | zero => rfl
    | succ i =>
      rw [List.cons_append, List.insertIdx_succ_cons, List.insertIdx_succ_cons, ih (by simpa using h)]
      rfl

theorem insertIdx_filter {l : List Nat} {i x : Nat} {p : Nat → Bool} (h : p x = false) : (l.insertIdx i x).filter p = l.filter p := by
  induction l generalizing i with
  | nil => cases i <;> simp [h]
  | cons a l ih =>
    cases i with
    | zero => simp [h]
    | succ i => rw [List.insertIdx_succ_cons, List.filter_cons, List.filter_cons, ih]

/-- Inserting the pairs `(position, entry)` one after the other. -/
def insertAll (l : List (Nat × Nat)) (o : List Nat) : List Nat := l.foldl (fun o p => o.insertIdx p.1 p.2) o

theorem insertAll_spec {l : List (Nat × Nat)} {o : List Nat} (hs : l.Pairwise fun p q => p.1 < q.1)
    (hb : ∀ (t : Nat) (p : Nat × Nat), l[t]? = some p → p.1 ≤ o.length + t) :
    (insertAll l o).Perm (l.map (·.2) ++ o) ∧ (∀ r, insertAll l (o ++ r) = insertAll l o ++ r) ∧ (∀ p ∈ l, (insertAll l o)[p.1]? = some p.2) ∧
      (∀ f : Nat → Bool, (∀ p ∈ l, f p.2 = false) → (insertAll l o).filter f = o.filter f) ∧
      ∀ i, (∀ p ∈ l, i < p.1) → (insertAll l o)[i]? = o[i]? := by
  induction l generalizing o with
  | nil => exact ⟨List.Perm.refl _, fun _ => rfl, fun _ h => by simp at h, fun _ _ => rfl, fun _ _ => rfl⟩
  | cons q l ih =>
    rw [List.pairwise_cons] at hs
    have h0 : q.1 ≤ o.length := by simpa using hb 0 q rfl
    have hlen : (o.insertIdx q.1 q.2).length = o.length + 1 := List.length_insertIdx_of_le_length h0 _
    obtain ⟨h1, h2, h3, h4, h5⟩ := ih (o := o.insertIdx q.1 q.2) hs.2 fun t p hp => by
      have := hb (t + 1) p hp
      omega
    have hself : (o.insertIdx q.1 q.2)[q.1]? = some q.2 := by
      rw [List.getElem?_insertIdx_self, if_pos h0]
    refine ⟨?_, fun r => ?_, fun p hp => ?_, fun f hf => ?_, fun i hi => ?_⟩
    · refine h1.trans ?_
      refine ((List.perm_insertIdx _ _ h0).append_left _).trans ?_
      rw [List.map_cons, List.cons_append]
      exact List.perm_middle
    · show insertAll l ((o ++ r).insertIdx q.1 q.2) = _
      rw [insertIdx_append h0, h2]
      rfl
    · rcases List.mem_cons.1 hp with rfl | hp
      · show (insertAll l (o.insertIdx p.1 p.2))[p.1]? = _
        rw [h5 _ fun q' hq' => hs.1 q' hq', hself]
      · exact h3 p hp
    · show (insertAll l (o.insertIdx q.1 q.2)).filter f = _
      rw [h4 f fun p hp => hf p (by simp [hp]), insertIdx_filter (hf q (by simp))]
    · show (insertAll l (o.insertIdx q.1 q.2))[i]? = _
      rw [h5 i fun p hp => hi p (by simp [hp]), List.getElem?_insertIdx_of_lt (hi q (by simp))]

theorem insertDest_perm (p : Nat × Nat) (l : List (Nat × Nat)) : (insertDest p l).Perm (p :: l) := by
  induction l with
  | nil => exact List.Perm.refl _
  | cons q l ih =>
    unfold insertDest
    by_cases h : p.1 ≤ q.1
    · rw [if_pos h]
    · rw [if_neg h]
      exact (ih.cons q).trans (List.Perm.swap p q l)

theorem insertDest_sorted {p : Nat × Nat} {l : List (Nat × Nat)} (h : l.Pairwise fun p q => p.1 < q.1) (hp : ∀ q ∈ l, q.1 ≠ p.1) :
    (insertDest p l).Pairwise fun p q => p.1 < q.1 := by
  induction l with
  | nil => simp [insertDest]
  | cons q l ih =>
    unfold insertDest
    rw [List.pairwise_cons] at h
    have hq := hp q (by simp)
    by_cases hle : p.1 ≤ q.1
    · rw [if_pos hle, List.pairwise_cons]
      refine ⟨fun r hr => ?_, List.pairwise_cons.2 h⟩
      rcases List.mem_cons.1 hr with rfl | hr
      · omega
      · have := h.1 r hr; omega
    · rw [if_neg hle, List.pairwise_cons]
      refine ⟨fun r hr => ?_, ih h.2 fun r hr => hp r (by simp [hr])⟩
      rcases List.mem_cons.1 ((insertDest_perm p l).mem_iff.1 hr) with rfl | hr
      · omega
      · exact h.1 r hr

theorem sortDest_spec {l : List (Nat × Nat)} (h : (l.map (·.1)).Nodup) :
    (l.foldr insertDest []).Perm l ∧ (l.foldr insertDest []).Pairwise fun p q => p.1 < q.1 := by
  induction l with
  | nil => exact ⟨List.Perm.refl _, List.Pairwise.nil⟩
  | cons p l ih =>
    rw [List.map_cons, List.nodup_cons] at h
    obtain ⟨h1, h2⟩ := ih h.2
    rw [List.foldr_cons]
    refine ⟨(insertDest_perm _ _).trans (h1.cons p), insertDest_sorted h2 fun q hq he => ?_⟩
    exact h.1 (List.mem_map.2 ⟨q, h1.mem_iff.1 hq, he⟩)

theorem sorted_bound {l : List (Nat × Nat)} {n : Nat} (hs : l.Pairwise fun p q => p.1 < q.1) (hn : ∀ p ∈ l, p.1 < n) :
    ∀ (t : Nat) (p : Nat × Nat), l[t]? = some p → p.1 + (l.length - t) ≤ n := by
  induction l with
  | nil => intro t p hp; simp at hp
  | cons q l ih =>
    rw [List.pairwise_cons] at hs
    have ih' := ih hs.2 fun p hp => hn p (by simp [hp])
    intro t p hp
    cases t with
    | zero =>
      simp only [List.getElem?_cons_zero, Option.some.injEq] at hp
      subst hp
      cases l with
      | nil => have := hn q (by simp); simp; omega
      | cons r l =>
        have h1 := ih' 0 r rfl
        have h2 := hs.1 r (by simp)
        simp at h1 ⊢
        omega
    | succ t =>
      have := ih' t p hp
      simp
      omega

/-- What moving the axes `source` to the positions `destination` means: `order` lists every axis once, axis `source[i]` comes to position
`destination[i]`, and the other axes keep their order. -/
structure MovesTo (n : Nat) (source destination order : List Nat) : Prop where
  perm : IsAxisPerm order n
  moved : ∀ (i : Nat) (s d : Nat), source[i]? = some s → destination[i]? = some d → order[d]? = some s
  kept : (order.filter fun ax => !source.contains ax).Pairwise (· < ·)

theorem moveOrder_spec {n : Nat} {source destination : List Nat} (hl : source.length = destination.length) (hs : source.Nodup) (hd : destination.Nodup)
    (hsn : ∀ s ∈ source, s < n) (hdn : ∀ d ∈ destination, d < n) :
    MovesTo n source destination (moveOrder n source destination) ∧
      ∀ m, moveOrder (n + m) source destination = moveOrder n source destination ++ (List.range m).map (n + ·) := by
  have hfst : (destination.zip source).map (·.1) = destination := List.map_fst_zip (by omega)
  have hsnd : (destination.zip source).map (·.2) = source := List.map_snd_zip (by omega)
  obtain ⟨h1, h2⟩ := sortDest_spec (l := destination.zip source) (by rw [hfst]; exact hd)
  have hrest : ((List.range n).filter fun i => !source.contains i).length + source.length = n := by
    have e1 := List.filter_append_perm (fun i => source.contains i) (List.range n)
    have e2 : ((List.range n).filter fun i => source.contains i).Perm source := by
      rw [List.perm_ext_iff_of_nodup (List.nodup_range.filter _) hs]
      intro a
      rw [List.mem_filter, List.mem_range, List.contains_iff_mem]
      exact ⟨fun h => h.2, fun h => ⟨hsn a h, h⟩⟩
    have e3 := e1.length_eq
    rw [List.length_append, List.length_range, e2.length_eq] at e3
    omega
  have hlen : ((destination.zip source).foldr insertDest []).length = source.length := by
    rw [h1.length_eq, List.length_zip]; omega
  obtain ⟨g1, g2, g3, g4, _⟩ := insertAll_spec (o := (List.range n).filter fun i => !source.contains i) h2 fun t p hp => by
    have := sorted_bound h2 (n := n) (fun p hp => hdn _ (by rw [← hfst]; exact List.mem_map.2 ⟨p, h1.mem_iff.1 hp, rfl⟩)) t p hp
    have := (List.getElem?_eq_some_iff.1 hp).1
    omega
  have hmem : ∀ p ∈ (destination.zip source).foldr insertDest [], p.2 ∈ source := fun p hp => by
    rw [← hsnd]; exact List.mem_map.2 ⟨p, h1.mem_iff.1 hp, rfl⟩
  refine ⟨⟨?_, fun i s d hi hj => ?_, ?_⟩, fun m => ?_⟩
  · have e1 := List.filter_append_perm (fun i => source.contains i) (List.range n)
    have e2 : ((List.range n).filter fun i => source.contains i).Perm source := by
      rw [List.perm_ext_iff_of_nodup (List.nodup_range.filter _) hs]
      intro a
      rw [List.mem_filter, List.mem_range, List.contains_iff_mem]
      exact ⟨fun h => h.2, fun h => ⟨hsn a h, h⟩⟩
    refine g1.trans (List.Perm.trans ?_ e1)
    refine List.Perm.append_right _ (List.Perm.trans ?_ e2.symm)
    have := h1.map (·.2)
    rwa [hsnd] at this
  · exact g3 (d, s) (h1.mem_iff.2 (List.mem_iff_getElem?.2 ⟨i, by rw [List.getElem?_zip_eq_some]; exact ⟨hj, hi⟩⟩))
  · show ((insertAll _ _).filter fun ax => !source.contains ax).Pairwise (· < ·)
    rw [g4 _ fun p hp => by simpa using hmem p hp]
    exact (List.pairwise_lt_range.filter _).filter _
  · unfold moveOrder
    have e : (List.range (n + m)).filter (fun i => !source.contains i) =
        ((List.range n).filter fun i => !source.contains i) ++ (List.range m).map (n + ·) := by
      rw [List.range_add, List.filter_append]
      congr 1
      rw [List.filter_eq_self]
      intro a ha
      obtain ⟨k, _, rfl⟩ := List.mem_map.1 ha
      have : n + k ∉ source := fun hh => by have := hsn _ hh; omega
      simpa using this
    rw [e]
    exact g2 _

theorem moveaxis_spec {a : NArr α} {b r source destination : List Nat} (hs : a.shape = b ++ r)
    (hl : source.length = destination.length) (hsn : source.Nodup) (hdn : destination.Nodup)
    (hsb : ∀ s ∈ source, s < b.length) (hdb : ∀ d ∈ destination, d < b.length) :
    ∃ z, moveaxis a (source.map Int.ofNat) (destination.map Int.ofNat) = some z ∧ z.Wf ∧
      z.shape = ((moveOrder b.length source destination).map fun ax => b.getD ax 0) ++ r ∧
      ∀ k, InB b k → sub ((moveOrder b.length source destination).map fun ax => k.getD ax 0) z = sub k a := by
  obtain ⟨h1, h2⟩ := moveOrder_spec hl hsn hdn hsb hdb
  obtain ⟨z, g1, g2⟩ := transpose_spec hs h1.perm
  refine ⟨z, ?_, g2⟩
  unfold moveaxis
  have hnd : a.shape.length = b.length + r.length := by rw [hs, List.length_append]
  rw [normAxes_nat (fun s h => by have := hsb s h; omega) hsn, normAxes_nat (fun s h => by have := hdb s h; omega) hdn]
  simp only [Option.bind_some]
  rw [if_pos hl, hnd, h2, List.map_append, List.map_map]
  exact g1

/-! ## `squeeze` -/

theorem dropAxes_shape {ks s : List Nat} {n : Nat} (h1 : ∀ i, i < s.length → n + i ∈ ks → s.getD i 0 = 1) (r : List Nat)
    (hr : ∀ i, i < r.length → n + s.length + i ∉ ks) :
    let d := fun (n : Nat) (l : List Nat) => ((l.zipIdx n).filter fun p => !ks.contains p.2).map (·.1)
    d n (s ++ r) = d n s ++ r ∧ size (d n s) = size s := by
  intro d
  induction s generalizing n with
  | nil =>
    refine ⟨?_, rfl⟩
    show ((r.zipIdx n).filter fun p => !ks.contains p.2).map (·.1) = r
    rw [List.filter_eq_self.2]
    · rw [List.zipIdx_map_fst]
    · intro p hp
      rw [List.mem_zipIdx_iff_le_and_getElem?_sub] at hp
      have hlt := (List.getElem?_eq_some_iff.1 hp.2).1
      have := hr (p.2 - n) hlt
      simp only [List.length_nil, Nat.add_zero] at this
      rw [show n + (p.2 - n) = p.2 by omega] at this
      simpa using this
  | cons e s ih =>
    obtain ⟨g1, g3⟩ := ih (n := n + 1) (fun i hi hm => by
      have := h1 (i + 1) (by simp; omega) (by rwa [show n + (i + 1) = n + 1 + i by omega])
      simpa using this) fun i hi => by
        have := hr i hi
        rwa [List.length_cons, show n + (s.length + 1) + i = n + 1 + s.length + i by omega] at this
    by_cases hk : n ∈ ks
    · have he : e = 1 := by simpa using h1 0 (by simp) (by simpa using hk)
      subst he
      have e1 : ∀ (x : Nat) (l : List Nat), d n (x :: l) = d (n + 1) l := fun x l => by simp [d, List.zipIdx_cons, hk]
      rw [List.cons_append, e1, e1]
      exact ⟨g1, by rw [g3]; simp⟩
    · have e1 : ∀ (x : Nat) (l : List Nat), d n (x :: l) = x :: d (n + 1) l := fun x l => by simp [d, List.zipIdx_cons, hk]
      rw [List.cons_append, e1, e1]
      exact ⟨by rw [g1]; rfl, by simp [g3]⟩

theorem dropAxes_index {ks s j : List Nat} {n : Nat} (h1 : ∀ i, i < s.length → n + i ∈ ks → s.getD i 0 = 1) (hj : InB s j) (r u : List Nat) :
    let d := fun (n : Nat) (l : List Nat) => ((l.zipIdx n).filter fun p => !ks.contains p.2).map (·.1)
    InB (d n s) (d n j) ∧ size (d n s) = size s ∧ ravel (d n s ++ r) (d n j ++ u) = ravel (s ++ r) (j ++ u) := by
  intro d
  induction s generalizing n j with
  | nil =>
    cases j with
    | cons => exact hj.elim
    | nil => exact ⟨trivial, rfl, rfl⟩
  | cons e s ih =>
    cases j with
    | nil => exact hj.elim
    | cons t j =>
      obtain ⟨g2, g3, g4⟩ := ih (n := n + 1) (fun i hi hm => by
        have := h1 (i + 1) (by simp; omega) (by rwa [show n + (i + 1) = n + 1 + i by omega])
        simpa using this) hj.2
      by_cases hk : n ∈ ks
      · have he : e = 1 := by simpa using h1 0 (by simp) (by simpa using hk)
        subst he
        have ht : t = 0 := by have := hj.1; omega
        subst ht
        have e1 : ∀ (x : Nat) (l : List Nat), d n (x :: l) = d (n + 1) l := fun x l => by simp [d, List.zipIdx_cons, hk]
        rw [e1, e1]
        refine ⟨g2, by rw [g3]; simp, ?_⟩
        rw [g4]
        simp [ravel]
      · have e1 : ∀ (x : Nat) (l : List Nat), d n (x :: l) = x :: d (n + 1) l := fun x l => by simp [d, List.zipIdx_cons, hk]
        rw [e1, e1]
        refine ⟨⟨hj.1, g2⟩, by simp [g3], ?_⟩
        simp only [List.cons_append, ravel]
        rw [g4, size_append, size_append, g3]

/-- Removing axes of length one among the leading axes. -/
theorem squeeze_leaf {a : NArr α} {b r ks : List Nat} (ha : a.Wf) (hs : a.shape = b ++ r) (hk : ∀ k ∈ ks, k < b.length) (h1 : ∀ k ∈ ks, b.getD k 0 = 1) :
    dropAxes ks (b ++ r) = dropAxes ks b ++ r ∧ (⟨dropAxes ks (b ++ r), a.data⟩ : NArr α).Wf ∧
      ∀ j, InB b j → InB (dropAxes ks b) (dropAxes ks j) ∧ sub (dropAxes ks j) (⟨dropAxes ks (b ++ r), a.data⟩ : NArr α) = sub j a := by
  obtain ⟨e1, e3⟩ : dropAxes ks (b ++ r) = dropAxes ks b ++ r ∧ size (dropAxes ks b) = size b :=
    dropAxes_shape (n := 0) (fun i _ hm => h1 i (by simpa using hm)) r fun i hi hm => by
      have := hk _ hm
      omega
  have haux : ∀ j u, InB b j → InB (dropAxes ks b) (dropAxes ks j) ∧ size (dropAxes ks b) = size b ∧
      ravel (dropAxes ks b ++ r) (dropAxes ks j ++ u) = ravel (b ++ r) (j ++ u) := fun j u hj =>
    dropAxes_index (n := 0) (fun i _ hm => h1 i (by simpa using hm)) hj r u
  refine ⟨e1, ?_, fun j hj => ?_⟩
  · show a.data.length = size (dropAxes ks (b ++ r))
    rw [e1, size_append, e3, ← size_append, ← hs]
    exact ha
  · have e2 := (haux j [] hj).1
    refine ⟨e2, ?_⟩
    rw [sub_eq (b := dropAxes ks b) (r := r) e1 e2, sub_eq hs hj]
    refine ofFn_congr fun u _ => ?_
    unfold get
    simp only
    rw [e1, hs, (haux j u hj).2.2]

/-- The axes of length one. -/
def unitAxes (b : List Nat) : List Nat := (List.range b.length).filter fun i => b.getD i 0 == 1

theorem filter_ne_one {ks s : List Nat} {n : Nat} (h : ∀ i, i < s.length → (n + i ∈ ks ↔ s.getD i 0 = 1)) :
    ((s.zipIdx n).filter fun p => !ks.contains p.2).map (·.1) = s.filter (· ≠ 1) := by
  induction s generalizing n with
  | nil => rfl
  | cons e s ih =>
    have h0 := h 0 (by simp)
    simp only [Nat.add_zero, List.getD_cons_zero] at h0
    have ih' := ih (n := n + 1) fun i hi => by
      have := h (i + 1) (by simp; omega)
      rw [show n + 1 + i = n + (i + 1) by omega, this]
      simp
    rw [List.zipIdx_cons, List.filter_cons, List.filter_cons]
    by_cases he : e = 1
    · rw [if_neg (by simpa using h0.2 he), if_neg (by simpa using he), ih']
    · rw [if_pos (by simpa using fun hh => he (h0.1 hh)), if_pos (by simpa using he), List.map_cons, ih']

theorem dropAxes_unit (b : List Nat) : dropAxes (unitAxes b) b = b.filter (· ≠ 1) :=
  filter_ne_one fun i hi => by simp [unitAxes, hi]

theorem unitAxes_spec {b : List Nat} {k : Nat} (h : k ∈ unitAxes b) : k < b.length ∧ b.getD k 0 = 1 := by
  unfold unitAxes at h
  rw [List.mem_filter, List.mem_range] at h
  exact ⟨h.1, by simpa using h.2⟩

end NArr
