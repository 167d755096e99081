import Verif.MergeModel

/-! # Helper lemmas about stable merging -/

namespace MergeModel

variable {K : Type u} [KeyLE K] {V : Type v}

theorem keyLE_trans {P : Type v} (x y z : K × P) : keyLE x y → keyLE y z → keyLE x z :=
  KeyLE.trans _ _ _

theorem keyLE_total {P : Type v} (x y : K × P) : keyLE x y || keyLE y x := KeyLE.total _ _

theorem sortKeyVal_eq {P : Type v} (l : List (K × P)) : sortKeyVal l = l.mergeSort keyLE :=
  Jax.stableSort_eq_mergeSort keyLE_trans keyLE_total l

theorem sortKeyVal_perm {P : Type v} (l : List (K × P)) : (sortKeyVal l).Perm l := by
  rw [sortKeyVal_eq]; exact List.mergeSort_perm _ _

theorem sortKeyVal_sorted {P : Type v} (l : List (K × P)) :
    (sortKeyVal l).Pairwise (fun x y => keyLE x y = true) :=
  sortKeyVal_eq l ▸ List.pairwise_mergeSort keyLE_trans keyLE_total l

theorem lexLE_trans (x y z : K × Nat) : lexLE x y → lexLE y z → lexLE x z := by
  simp only [lexLE, Bool.and_eq_true, Bool.or_eq_true, Bool.not_eq_true', decide_eq_true_eq]
  rintro ⟨h1, h2⟩ ⟨h3, h4⟩
  refine ⟨KeyLE.trans _ _ _ h1 h3, ?_⟩
  by_cases h : KeyCmp.le z.1 x.1 = true
  · right
    have a1 : KeyCmp.le y.1 x.1 = true := KeyLE.trans _ _ _ h3 h
    have a2 : KeyCmp.le z.1 y.1 = true := KeyLE.trans _ _ _ h h1
    simp [a1] at h2; simp [a2] at h4; omega
  · left; simpa using h

theorem lexLE_total (x y : K × Nat) : lexLE x y || lexLE y x := by
  have := KeyLE.total x.1 y.1
  simp only [lexLE]
  cases h1 : KeyCmp.le x.1 y.1 <;> cases h2 : KeyCmp.le y.1 x.1 <;> simp_all
  omega

theorem lexLE_antisymm_snd {x y : K × Nat} (h1 : lexLE x y = true) (h2 : lexLE y x = true) :
    x.2 = y.2 := by
  simp only [lexLE, Bool.and_eq_true, Bool.or_eq_true, Bool.not_eq_true', decide_eq_true_eq] at h1 h2
  obtain ⟨a1, a2⟩ := h1
  obtain ⟨b1, b2⟩ := h2
  simp [b1] at a2; simp [a1] at b2; omega

theorem zipIdx_pairwise_lt {α : Type u} (l : List α) (s : Nat) :
    (l.zipIdx s).Pairwise (fun x y => x.2 < y.2) := by
  induction l generalizing s with
  | nil => simp
  | cons x l ih =>
    rw [List.zipIdx_cons, List.pairwise_cons]
    refine ⟨?_, ih _⟩
    intro y hy
    have := List.le_snd_of_mem_zipIdx (x := y) hy
    omega

/-- Two elements of an index-increasing list with the same index are equal. -/
theorem eq_of_snd_eq {α : Type u} {l : List (α × Nat)} (h : l.Pairwise (fun x y => x.2 < y.2))
    {x y : α × Nat} (hx : x ∈ l) (hy : y ∈ l) (e : x.2 = y.2) : x = y := by
  induction l with
  | nil => simp at hx
  | cons a l ih =>
    rw [List.pairwise_cons] at h
    simp only [List.mem_cons] at hx hy
    rcases hx with rfl | hx <;> rcases hy with rfl | hy
    · rfl
    · have := h.1 _ hy; omega
    · have := h.1 _ hx; omega
    · exact ih h.2 hx hy

/-- A stable sort by key of an index-increasing list is sorted by (key, index). -/
theorem sortKeyVal_lex {l : List (K × Nat)} (hl : l.Pairwise (fun x y => x.2 < y.2)) :
    (sortKeyVal l).Pairwise (fun x y => lexLE x y = true) := by
  have hs := sortKeyVal_sorted l
  have hn : l.Nodup := hl.imp (fun {x y} h e => by subst e; omega)
  have hn' : (sortKeyVal l).Nodup := (sortKeyVal_perm l).nodup_iff.2 hn
  rw [List.pairwise_iff_forall_sublist] at hs ⊢
  intro x y hxy
  have h1 : keyLE x y = true := hs hxy
  simp only [lexLE, Bool.and_eq_true, Bool.or_eq_true, Bool.not_eq_true', decide_eq_true_eq]
  refine ⟨h1, ?_⟩
  by_cases h2 : KeyCmp.le y.1 x.1 = true
  · right
    apply Classical.byContradiction
    intro hlt
    have hx : x ∈ l := (sortKeyVal_perm l).mem_iff.1 (hxy.subset (by simp))
    have hy : y ∈ l := (sortKeyVal_perm l).mem_iff.1 (hxy.subset (by simp))
    -- `[y, x]` is a sublist of `l`
    have hyx : [y, x].Sublist l := by
      clear hs hn' hxy h1 h2
      induction l with
      | nil => simp at hx
      | cons a l ih =>
        rw [List.pairwise_cons] at hl
        simp only [List.mem_cons] at hx hy
        rcases hy with rfl | hy
        · rcases hx with rfl | hx
          · omega
          · exact (List.singleton_sublist.2 hx).cons_cons _
        · rcases hx with rfl | hx
          · have := hl.1 _ hy; omega
          · exact (ih hl.2 (List.nodup_cons.1 hn).2 hx hy).cons _
    have hsub := List.pair_sublist_mergeSort (le := keyLE) keyLE_trans keyLE_total h2 hyx
    rw [← sortKeyVal_eq] at hsub
    -- `[x, y]` and `[y, x]` cannot both be sublists of a duplicate-free list
    have : ∀ (m : List (K × Nat)), m.Nodup → [x, y].Sublist m → [y, x].Sublist m → x ≠ y → False := by
      intro m
      induction m with
      | nil => intro _ h; simp at h
      | cons a m ih =>
        intro hm h1 h2 hne
        rw [List.nodup_cons] at hm
        cases h1 with
        | cons _ h1 =>
          cases h2 with
          | cons _ h2 => exact ih hm.2 h1 h2 hne
          | cons_cons _ h2 => exact hm.1 (h1.subset (by simp))
        | cons_cons _ h1 =>
          cases h2 with
          | cons _ h2 => exact hm.1 (h2.subset (by simp))
          | cons_cons _ h2 => exact hne rfl
    exact this _ hn' hxy hsub (by intro e; subst e; omega)
  · left; simpa using h2

/-- Uniqueness of the stable sort: a list sorted by (key, index) that is a permutation of an
index-increasing list is *the* stable sort. -/
theorem eq_sortKeyVal_of_lex {l m : List (K × Nat)} (hl : l.Pairwise (fun x y => x.2 < y.2))
    (hm : m.Pairwise (fun x y => lexLE x y = true)) (hp : m.Perm l) : m = sortKeyVal l := by
  apply List.Perm.eq_of_pairwise (le := fun x y => lexLE x y = true) _ hm (sortKeyVal_lex hl)
    (hp.trans (sortKeyVal_perm l).symm)
  intro x y hx hy h1 h2
  exact eq_of_snd_eq hl (hp.mem_iff.1 hx) ((sortKeyVal_perm l).mem_iff.1 hy) (lexLE_antisymm_snd h1 h2)

/-- The recursive stable merge of the two index-tagged inputs. -/
def refMerge (a b : List K) : List (K × Nat) := List.merge a.zipIdx (b.zipIdx a.length) keyLE

theorem sorted_zipIdx_lex {a : List K} (ha : a.Pairwise (fun x y => KeyCmp.le x y = true)) (s : Nat) :
    (a.zipIdx s).Pairwise (fun x y => lexLE x y = true) := by
  induction a generalizing s with
  | nil => simp
  | cons x a ih =>
    rw [List.pairwise_cons] at ha
    rw [List.zipIdx_cons, List.pairwise_cons]
    refine ⟨?_, ih ha.2 _⟩
    intro y hy
    have h1 := List.le_snd_of_mem_zipIdx (x := y) hy
    have h2 : y.1 ∈ a := List.fst_mem_of_mem_zipIdx hy
    simp only [lexLE, Bool.and_eq_true, Bool.or_eq_true, decide_eq_true_eq]
    exact ⟨ha.1 _ h2, Or.inr (by omega)⟩

theorem merge_congr {α : Type u} {le le' : α → α → Bool} {xs ys : List α}
    (h : ∀ x ∈ xs, ∀ y ∈ ys, le x y = le' x y) : List.merge xs ys le = List.merge xs ys le' := by
  have := List.map_merge (f := id) (r := le) (s := le') (l := xs) (l' := ys) (by simpa using h)
  simpa using this

theorem refMerge_lex {a b : List K} (ha : a.Pairwise (fun x y => KeyCmp.le x y = true))
    (hb : b.Pairwise (fun x y => KeyCmp.le x y = true)) :
    (refMerge a b).Pairwise (fun x y => lexLE x y = true) := by
  have : refMerge a b = List.merge a.zipIdx (b.zipIdx a.length) lexLE := by
    apply merge_congr
    intro x hx y hy
    have h1 := List.snd_lt_of_mem_zipIdx (x := x) hx
    have h2 := List.le_snd_of_mem_zipIdx (x := y) hy
    simp only [keyLE, lexLE]
    have : decide (x.2 ≤ y.2) = true := by simp; omega
    simp [this]
  rw [this]
  exact List.pairwise_merge lexLE_trans lexLE_total _ _ (sorted_zipIdx_lex ha _)
    (sorted_zipIdx_lex hb _)

theorem mergeSortSplitIdx_eq_ref {a b : List K} (ha : a.Pairwise (fun x y => KeyCmp.le x y = true))
    (hb : b.Pairwise (fun x y => KeyCmp.le x y = true)) : mergeSortSplitIdx a b = refMerge a b := by
  symm
  apply eq_sortKeyVal_of_lex (zipIdx_pairwise_lt _ _) (refMerge_lex ha hb)
  unfold refMerge
  rw [List.zipIdx_append]
  simpa using List.merge_perm_append keyLE (xs := a.zipIdx) (ys := b.zipIdx a.length)

/-! ## The loop kernel -/

theorem drop_zipIdx_cons {α : Type u} (a : List α) (s i : Nat) (h : i < a.length) :
    (a.zipIdx s).drop i = (a[i], s + i) :: (a.zipIdx s).drop (i + 1) := by
  rw [List.drop_eq_getElem_cons (by simpa using h)]
  simp

omit [KeyLE K] in
theorem loopB_eq (n : Nat) (b : List K) (ib : Nat) (out : List (K × Nat)) :
    loopB n b ib out = out ++ (b.zipIdx n).drop ib := by
  fun_induction loopB n b ib out with
  | case1 ib out h ih => rw [ih, drop_zipIdx_cons b n ib h]; simp
  | case2 ib out h => rw [List.drop_eq_nil_of_le (by simp; omega)]; simp

omit [KeyLE K] in
theorem loopA_eq (a : List K) (ia : Nat) (out : List (K × Nat)) :
    (loopA a ia out).2 = out ++ a.zipIdx.drop ia := by
  fun_induction loopA a ia out with
  | case1 ia out h ih => rw [ih, drop_zipIdx_cons a 0 ia h]; simp
  | case2 ia out h => rw [List.drop_eq_nil_of_le (by simp; omega)]; simp

theorem loopMain_eq (a b : List K) (ia ib : Nat) (out : List (K × Nat)) :
    out ++ List.merge (a.zipIdx.drop ia) ((b.zipIdx a.length).drop ib) keyLE =
      (loopMain a b ia ib out).2.2 ++
        List.merge (a.zipIdx.drop (loopMain a b ia ib out).1)
          ((b.zipIdx a.length).drop (loopMain a b ia ib out).2.1) keyLE ∧
    (a.length ≤ (loopMain a b ia ib out).1 ∨ b.length ≤ (loopMain a b ia ib out).2.1) := by
  fun_induction loopMain a b ia ib out with
  | case1 ia ib out h hle ih =>
    refine ⟨?_, ih.2⟩
    rw [← ih.1, drop_zipIdx_cons a 0 ia h.1, drop_zipIdx_cons b a.length ib h.2,
      List.cons_merge_cons, if_pos (by simpa [keyLE] using hle)]
    simp
  | case2 ia ib out h hle ih =>
    refine ⟨?_, ih.2⟩
    rw [← ih.1, drop_zipIdx_cons a 0 ia h.1, drop_zipIdx_cons b a.length ib h.2,
      List.cons_merge_cons, if_neg (by simpa [keyLE] using hle)]
    simp
  | case3 ia ib out h => exact ⟨rfl, by simp only; omega⟩

theorem mergeLoop_eq_ref (a b : List K) : mergeLoop a b = refMerge a b := by
  have h := loopMain_eq a b 0 0 []
  simp only [List.drop_zero, List.nil_append] at h
  unfold mergeLoop refMerge
  simp only
  rw [h.1, loopB_eq, loopA_eq]
  rcases h.2 with h2 | h2
  · rw [List.drop_eq_nil_of_le (as := a.zipIdx) (by simpa using h2)]; simp
  · rw [List.drop_eq_nil_of_le (as := b.zipIdx a.length) (by simpa using h2)]; simp

/-! ## Merge path -/

/-- `(i, j)` is the point reached by the stable merge after `i + j` steps. -/
def Valid (a b : List K) (i j : Nat) : Prop :=
  i ≤ a.length ∧ j ≤ b.length ∧
  (∀ x y, 0 < i → a[i - 1]? = some x → b[j]? = some y → KeyCmp.le x y = true) ∧
  (∀ x y, 0 < j → a[i]? = some x → b[j - 1]? = some y → KeyCmp.le x y = false)

theorem sorted_get {a : List K} (ha : a.Pairwise (fun x y => KeyCmp.le x y = true)) {i j : Nat}
    {x y : K} (hij : i ≤ j) (hx : a[i]? = some x) (hy : a[j]? = some y) : KeyCmp.le x y = true := by
  rw [List.getElem?_eq_some_iff] at hx hy
  obtain ⟨hi, rfl⟩ := hx
  obtain ⟨hj, rfl⟩ := hy
  rcases Nat.lt_or_eq_of_le hij with h | h
  · exact List.pairwise_iff_getElem.1 ha _ _ hi hj h
  · subst h; exact KeyLE.refl _

theorem valid_not_lt {a b : List K} (ha : a.Pairwise (fun x y => KeyCmp.le x y = true))
    (hb : b.Pairwise (fun x y => KeyCmp.le x y = true)) {i j i' j' : Nat}
    (h : Valid a b i j) (h' : Valid a b i' j') (hk : i + j = i' + j') : ¬ i < i' := by
  intro hlt
  obtain ⟨h1, h2, h3, h4⟩ := h
  obtain ⟨h1', h2', h3', h4'⟩ := h'
  have e1 : i < a.length := by omega
  have e2 : i' - 1 < a.length := by omega
  have e3 : j' < b.length := by omega
  have e4 : j - 1 < b.length := by omega
  have f1 := h3' a[i'-1] b[j'] (by omega) (List.getElem?_eq_getElem e2) (List.getElem?_eq_getElem e3)
  have f2 := h4 a[i] b[j-1] (by omega) (List.getElem?_eq_getElem e1) (List.getElem?_eq_getElem e4)
  have g1 : KeyCmp.le a[i] a[i'-1] = true :=
    sorted_get ha (by omega : i ≤ i' - 1) (List.getElem?_eq_getElem e1) (List.getElem?_eq_getElem e2)
  have g2 : KeyCmp.le b[j'] b[j-1] = true :=
    sorted_get hb (by omega : j' ≤ j - 1) (List.getElem?_eq_getElem e3) (List.getElem?_eq_getElem e4)
  have := KeyLE.trans _ _ _ (KeyLE.trans _ _ _ g1 f1) g2
  rw [f2] at this; simp at this

theorem valid_unique {a b : List K} (ha : a.Pairwise (fun x y => KeyCmp.le x y = true))
    (hb : b.Pairwise (fun x y => KeyCmp.le x y = true)) {i j i' j' : Nat}
    (h : Valid a b i j) (h' : Valid a b i' j') (hk : i + j = i' + j') : i = i' ∧ j = j' := by
  have h1 := valid_not_lt ha hb h h' hk
  have h2 := valid_not_lt ha hb h' h hk.symm
  omega

/-- The point reached after `k` steps of the sequential merge. -/
theorem exists_valid {a b : List K} (ha : a.Pairwise (fun x y => KeyCmp.le x y = true))
    (hb : b.Pairwise (fun x y => KeyCmp.le x y = true)) (k : Nat) (hk : k ≤ a.length + b.length) :
    ∃ i j, i + j = k ∧ Valid a b i j ∧
      (refMerge a b).drop k = List.merge (a.zipIdx.drop i) ((b.zipIdx a.length).drop j) keyLE ∧
      ((refMerge a b).take k).countP (fun x => decide (x.2 < a.length)) = i := by
  induction k with
  | zero =>
    refine ⟨0, 0, rfl, ⟨by omega, by omega, by omega, by omega⟩, ?_, by simp⟩
    simp [refMerge]
  | succ k ih =>
    obtain ⟨i, j, e, hv, hd, hc⟩ := ih (by omega)
    obtain ⟨v1, v2, v3, v4⟩ := hv
    have hlen : k < (refMerge a b).length := by simp [refMerge]; omega
    have htake : (refMerge a b).take (k + 1) = (refMerge a b).take k ++ [(refMerge a b)[k]] :=
      List.take_succ_eq_append_getElem hlen
    have hdrop := List.drop_eq_getElem_cons hlen
    rw [hd] at hdrop
    -- who is next?
    by_cases hi : i < a.length
    · by_cases hj : j < b.length
      · rw [drop_zipIdx_cons a 0 i hi, drop_zipIdx_cons b a.length j hj, List.cons_merge_cons] at hdrop
        by_cases hle : KeyCmp.le a[i] b[j] = true
        · rw [if_pos (by simpa [keyLE] using hle)] at hdrop
          rw [List.cons.injEq] at hdrop
          refine ⟨i + 1, j, by omega, ⟨by omega, v2, ?_, ?_⟩, ?_, ?_⟩
          · intro x y _ hx hy
            simp only [Nat.add_sub_cancel] at hx
            rw [List.getElem?_eq_getElem hi] at hx
            rw [List.getElem?_eq_getElem hj] at hy
            simp only [Option.some.injEq] at hx hy
            subst hx; subst hy; exact hle
          · intro x y h0 hx hy
            cases hq : KeyCmp.le x y with
            | false => rfl
            | true =>
              have h5 := v4 a[i] y h0 (List.getElem?_eq_getElem hi) hy
              have h6 := sorted_get ha (by omega : i ≤ i + 1) (List.getElem?_eq_getElem hi) hx
              rw [KeyLE.trans _ _ _ h6 hq] at h5; simp at h5
          · rw [← hdrop.2, drop_zipIdx_cons b a.length j hj]
          · rw [htake, List.countP_append, hc, ← hdrop.1]; simp [hi]
        · rw [if_neg (by simpa [keyLE] using hle)] at hdrop
          rw [List.cons.injEq] at hdrop
          refine ⟨i, j + 1, by omega, ⟨v1, by omega, ?_, ?_⟩, ?_, ?_⟩
          · intro x y h0 hx hy
            have h5 := v3 x b[j] h0 hx (List.getElem?_eq_getElem hj)
            exact KeyLE.trans _ _ _ h5
              (sorted_get hb (by omega : j ≤ j + 1) (List.getElem?_eq_getElem hj) hy)
          · intro x y _ hx hy
            simp only [Nat.add_sub_cancel] at hy
            rw [List.getElem?_eq_getElem hi] at hx
            rw [List.getElem?_eq_getElem hj] at hy
            simp only [Option.some.injEq] at hx hy
            subst hx; subst hy; simpa using hle
          · rw [← hdrop.2, drop_zipIdx_cons a 0 i hi]
          · rw [htake, List.countP_append, hc, ← hdrop.1]; simp
      · -- b exhausted
        rw [drop_zipIdx_cons a 0 i hi, List.drop_eq_nil_of_le (as := b.zipIdx a.length)
          (by simp; omega), List.merge_right] at hdrop
        rw [List.cons.injEq] at hdrop
        refine ⟨i + 1, j, by omega, ⟨by omega, v2, ?_, ?_⟩, ?_, ?_⟩
        · intro x y _ _ hy
          rw [List.getElem?_eq_none (by omega)] at hy; simp at hy
        · intro x y h0 hx hy
          cases hq : KeyCmp.le x y with
          | false => rfl
          | true =>
            have h5 := v4 a[i] y h0 (List.getElem?_eq_getElem hi) hy
            have h6 := sorted_get ha (by omega : i ≤ i + 1) (List.getElem?_eq_getElem hi) hx
            rw [KeyLE.trans _ _ _ h6 hq] at h5; simp at h5
        · rw [← hdrop.2, List.drop_eq_nil_of_le (as := b.zipIdx a.length) (by simp; omega),
            List.merge_right]
        · rw [htake, List.countP_append, hc, ← hdrop.1]; simp [hi]
    · have hj : j < b.length := by omega
      rw [List.drop_eq_nil_of_le (as := a.zipIdx) (by simp; omega), List.nil_merge,
        drop_zipIdx_cons b a.length j hj] at hdrop
      rw [List.cons.injEq] at hdrop
      refine ⟨i, j + 1, by omega, ⟨v1, by omega, ?_, ?_⟩, ?_, ?_⟩
      · intro x y h0 hx hy
        have h5 := v3 x b[j] h0 hx (List.getElem?_eq_getElem hj)
        exact KeyLE.trans _ _ _ h5
          (sorted_get hb (by omega : j ≤ j + 1) (List.getElem?_eq_getElem hj) hy)
      · intro x y _ hx _
        rw [List.getElem?_eq_none (by omega)] at hx; simp at hx
      · rw [← hdrop.2, List.drop_eq_nil_of_le (as := a.zipIdx) (by simp; omega), List.nil_merge]
      · rw [htake, List.countP_append, hc, ← hdrop.1]; simp

/-- Result of the binary search: the largest candidate, in the sense of the loop invariant. -/
theorem partLoop_spec (minV maxV : K) (k : Nat) (a b : List K) (low high : Nat)
    (lo hi : Nat) (hlo : lo = k - b.length) (hhi : hi = min a.length k)
    (h1 : lo ≤ low) (h2 : low ≤ high) (h3 : high ≤ hi)
    (hlow : low = lo ∨ ∀ x y, a[low - 1]? = some x → b[k - low]? = some y → KeyCmp.le x y = true)
    (hhigh : high = hi ∨ ∀ x y, a[high]? = some x → b[k - (high + 1)]? = some y →
      KeyCmp.le x y = false) :
    let i := partLoop minV maxV k a b low high
    lo ≤ i ∧ i ≤ hi ∧
    (i = lo ∨ ∀ x y, a[i - 1]? = some x → b[k - i]? = some y → KeyCmp.le x y = true) ∧
    (i = hi ∨ ∀ x y, a[i]? = some x → b[k - (i + 1)]? = some y → KeyCmp.le x y = false) := by
  subst hlo
  subst hhi
  fun_induction partLoop minV maxV k a b low high with
  | case1 low high h i j aVal bVal hle ih =>
    refine ih (by omega) (by omega) ?_ h3 hhigh
    right
    intro x y hx hy
    simp only [aVal, bVal, j] at hle
    have hi0 : i > 0 := by omega
    have hjb : k - i < b.length := by
      rw [List.getElem?_eq_some_iff] at hy; exact hy.1
    rw [dif_pos hi0, dif_pos hjb, hx, hy] at hle
    exact hle
  | case2 low high h i j aVal bVal hle ih =>
    refine ih (by omega) (by omega) hlow (by omega) ?_
    right
    intro x y hx hy
    simp only [aVal, bVal, j] at hle
    have hi0 : i > 0 := by omega
    rw [show i - 1 + 1 = i by omega] at hy
    have hjb : k - i < b.length := by
      rw [List.getElem?_eq_some_iff] at hy; exact hy.1
    rw [dif_pos hi0, dif_pos hjb, hx, hy] at hle
    simpa using hle
  | case3 low high h =>
    have : low = high := by omega
    subst this
    exact ⟨h1, h3, hlow, hhigh⟩

theorem partition_valid (minV maxV : K) (k : Nat) (a b : List K) (hk : k ≤ a.length + b.length) :
    Valid a b (binarySearchPartition minV maxV k a b).1 (binarySearchPartition minV maxV k a b).2 ∧
    (binarySearchPartition minV maxV k a b).1 + (binarySearchPartition minV maxV k a b).2 = k := by
  have h := partLoop_spec minV maxV k a b (k - b.length) (min a.length k) _ _ rfl rfl
    (by omega) (by omega) (by omega) (Or.inl rfl) (Or.inl rfl)
  simp only [binarySearchPartition]
  generalize partLoop minV maxV k a b (k - b.length) (min a.length k) = i at h
  obtain ⟨h1, h2, h3, h4⟩ := h
  refine ⟨⟨by omega, by omega, ?_, ?_⟩, by omega⟩
  · intro x y h0 hx hy
    rcases h3 with h3 | h3
    · have : k - i = b.length ∨ i = 0 := by omega
      rcases this with h | h
      · rw [List.getElem?_eq_none (by omega)] at hy; simp at hy
      · omega
    · exact h3 x y hx hy
  · intro x y h0 hx hy
    rcases h4 with h4 | h4
    · have : i = a.length ∨ k - i = 0 := by omega
      rcases this with h | h
      · rw [List.getElem?_eq_none (by omega)] at hx; simp at hx
      · omega
    · exact h4 x y hx (by rw [show k - (i + 1) = k - i - 1 by omega]; exact hy)

theorem kernelStep_eq (a b : List K) (ha : 0 < a.length) (hb : 0 < b.length) (i j : Nat) :
    kernelStep a b i j =
      if b.length ≤ j ∨ (i < a.length ∧
        KeyCmp.le (a[min i (a.length - 1)]'(by omega)) (b[min j (b.length - 1)]'(by omega)) = true)
      then (some (a[min i (a.length - 1)]'(by omega), i), i + 1, j)
      else (some (b[min j (b.length - 1)]'(by omega), a.length + j), i, j + 1) := by
  unfold kernelStep
  rw [List.getElem?_eq_getElem (by omega), List.getElem?_eq_getElem (by omega)]
  by_cases h1 : b.length ≤ j <;> by_cases h2 : i < a.length <;>
    simp [h1, h2]

theorem kernelBlock_eq (a b : List K) (ha : 0 < a.length) (hb : 0 < b.length) (s i j : Nat)
    (hi : i ≤ a.length) (hj : j ≤ b.length) :
    (kernelBlock a b s i j).take ((a.length - i) + (b.length - j)) =
      (List.merge (a.zipIdx.drop i) ((b.zipIdx a.length).drop j) keyLE).take s ∧
    (kernelBlock a b s i j).length = s := by
  have hlen : ∀ s i j, (kernelBlock a b s i j).length = s := by
    intro s
    induction s with
    | zero => intro i j; simp [kernelBlock]
    | succ s ih =>
      intro i j
      rw [kernelBlock, kernelStep_eq a b ha hb]
      split
      · rename_i h
        split at h
        · simp only [Prod.mk.injEq, Option.some.injEq] at h; simp [ih]
        · simp only [Prod.mk.injEq, Option.some.injEq] at h; simp [ih]
      · rename_i h
        split at h <;> simp at h
  refine ⟨?_, hlen s i j⟩
  induction s generalizing i j with
  | zero => simp [kernelBlock]
  | succ s ih =>
    rw [kernelBlock, kernelStep_eq a b ha hb]
    by_cases hj' : j < b.length
    · by_cases hi' : i < a.length
      · rw [drop_zipIdx_cons a 0 i hi', drop_zipIdx_cons b a.length j hj', List.cons_merge_cons]
        have e1 : min i (a.length - 1) = i := by omega
        have e2 : min j (b.length - 1) = j := by omega
        simp only [e1, e2]
        by_cases hle : KeyCmp.le a[i] b[j] = true
        · rw [if_pos (Or.inr ⟨hi', hle⟩), if_pos (by simpa [keyLE] using hle)]
          simp only
          have := ih (i + 1) j (by omega) hj
          rw [show a.length - i + (b.length - j) = (a.length - (i+1) + (b.length - j)) + 1 by omega,
            List.take_succ_cons, this, drop_zipIdx_cons b a.length j hj']
          simp
        · rw [if_neg (by rintro (h | h); omega; exact hle h.2), if_neg (by simpa [keyLE] using hle)]
          simp only
          have := ih i (j + 1) hi (by omega)
          rw [show a.length - i + (b.length - j) = (a.length - i + (b.length - (j+1))) + 1 by omega,
            List.take_succ_cons, this, drop_zipIdx_cons a 0 i hi']
          simp
      · rw [if_neg (by omega), List.drop_eq_nil_of_le (as := a.zipIdx) (by simp; omega),
          List.nil_merge, drop_zipIdx_cons b a.length j hj']
        have e2 : min j (b.length - 1) = j := by omega
        simp only [e2]
        have := ih i (j + 1) hi (by omega)
        rw [List.drop_eq_nil_of_le (as := a.zipIdx) (by simp; omega), List.nil_merge] at this
        rw [show a.length - i + (b.length - j) = (a.length - i + (b.length - (j+1))) + 1 by omega,
          List.take_succ_cons, this]
        simp
    · rw [if_pos (by omega)]
      simp only
      rw [List.drop_eq_nil_of_le (as := b.zipIdx a.length) (by simp; omega), List.merge_right]
      by_cases hi' : i < a.length
      · have e1 : min i (a.length - 1) = i := by omega
        simp only [e1]
        have := ih (i + 1) j (by omega) hj
        rw [List.drop_eq_nil_of_le (as := b.zipIdx a.length) (by simp; omega), List.merge_right] at this
        rw [show a.length - i + (b.length - j) = (a.length - (i+1) + (b.length - j)) + 1 by omega,
          List.take_succ_cons, this, drop_zipIdx_cons a 0 i hi']
        simp
      · rw [show a.length - i + (b.length - j) = 0 by omega,
          List.drop_eq_nil_of_le (as := a.zipIdx) (by simp; omega)]
        simp

end MergeModel
