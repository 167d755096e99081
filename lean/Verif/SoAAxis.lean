import Verif.SoAAxisModel
import Verif.SoABatch
import Verif.SoAReshape
import Verif.SoAWhere

/-!
# C52: axis operations rearrange whole records
-/

namespace NArr

variable {α : Type} [Inhabited α]

/-- On every array of shape `b ++ r` with `G r`: the result has shape `b' ++ r` and row `j` of it is row `σ j` of the argument. -/
def Rearranges (G : List Nat → Prop) (b b' : List Nat) (σ : List Nat → List Nat) (f : NArr α → Option (NArr α)) : Prop :=
  ∀ r a, G r → a.Wf → a.shape = b ++ r →
    ∃ w, f a = some w ∧ w.Wf ∧ w.shape = b' ++ r ∧ ∀ j, InB b' j → InB b (σ j) ∧ sub j w = sub (σ j) a

theorem Rearranges.comp {G : List Nat → Prop} {b b' b'' : List Nat} {σ τ : List Nat → List Nat} {f g : NArr α → Option (NArr α)}
    (hf : Rearranges G b b' σ f) (hg : Rearranges G b' b'' τ g) : Rearranges G b b'' (fun j => σ (τ j)) fun a => (f a).bind g := by
  intro r a hG ha hs
  obtain ⟨w, h1, h2, h3, h4⟩ := hf r a hG ha hs
  obtain ⟨u, g1, g2, g3, g4⟩ := hg r w hG h2 h3
  refine ⟨u, by dsimp only; rw [h1, Option.bind_some, g1], g2, g3, fun j hj => ?_⟩
  obtain ⟨k1, k2⟩ := g4 j hj
  obtain ⟨l1, l2⟩ := h4 _ k1
  exact ⟨l1, k2.trans l2⟩

theorem Rearranges.congr {G : List Nat → Prop} {b b' : List Nat} {σ τ : List Nat → List Nat} {f : NArr α → Option (NArr α)}
    (hf : Rearranges G b b' σ f) (h : ∀ j, InB b' j → τ j = σ j) : Rearranges G b b' τ f := by
  intro r a hG ha hs
  obtain ⟨w, h1, h2, h3, h4⟩ := hf r a hG ha hs
  exact ⟨w, h1, h2, h3, fun j hj => by rw [h j hj]; exact h4 j hj⟩

theorem Rearranges.ident (G : List Nat → Prop) (b : List Nat) : Rearranges (α := α) G b b id some :=
  fun _ a _ ha hs => ⟨a, rfl, ha, hs, fun _ hj => ⟨hj, rfl⟩⟩

/-! ## One axis -/

theorem mapAxis_rearranges (G : List Nat → Prop) {b : List Nat} {k d' : Nat} {f : Nat → Nat} (hk : k < b.length) (hf : ∀ p, p < d' → f p < b.getD k 0) :
    Rearranges (α := α) G b (b.set k d') (fun j => j.set k (f (j.getD k 0))) fun a => some (mapAxis a k d' f) := by
  intro r a _ ha hs
  refine ⟨_, rfl, ofFn_wf _ _, by simp only [mapAxis, ofFn_shape]; rw [hs, List.set_append_left _ _ hk], fun j hj => ?_⟩
  have hjl : j.length = b.length := by rw [hj.length, List.length_set]
  have hja := inB_getD (ax := k) hj (by rw [List.length_set]; exact hk)
  rw [getD_set_eq hk] at hja
  have hin := inB_set_axis (i := f (j.getD k 0)) hj (hf _ hja)
  refine ⟨hin, ?_⟩
  unfold mapAxis
  rw [hs, List.set_append_left _ _ hk, sub_ofFn _ hj, sub_eq hs hin]
  refine ofFn_congr fun u _ => ?_
  rw [getD_append_left' _ (by omega), List.set_append_left _ _ (by omega)]

/-! ## Several axes -/

theorem inB_iff {b j : List Nat} : InB b j ↔ j.length = b.length ∧ ∀ i, i < b.length → j.getD i 0 < b.getD i 0 := by
  induction b generalizing j with
  | nil =>
    cases j with
    | nil => simp [InB]
    | cons => simp [InB]
  | cons d b ih =>
    cases j with
    | nil => simp [InB]
    | cons a j =>
      simp only [InB, ih, List.length_cons, Nat.add_right_cancel_iff]
      constructor
      · rintro ⟨h1, h2, h3⟩
        refine ⟨h2, fun i hi => ?_⟩
        cases i with
        | zero => simpa using h1
        | succ i => simpa using h3 i (by omega)
      · rintro ⟨h2, h3⟩
        refine ⟨by simpa using h3 0 (by omega), h2, fun i hi => ?_⟩
        simpa using h3 (i + 1) (by omega)

theorem getD_map_range {n : Nat} {g : Nat → Nat} {i : Nat} (h : i < n) : ((List.range n).map g).getD i 0 = g i := by
  rw [List.getD_eq_getElem?_getD, List.getElem?_map, List.getElem?_range h]; rfl

theorem inB_map_range {b : List Nat} {g : Nat → Nat} (h : ∀ i, i < b.length → g i < b.getD i 0) : InB b ((List.range b.length).map g) :=
  inB_iff.2 ⟨by simp, fun i hi => by rw [getD_map_range hi]; exact h i hi⟩

theorem ext_getD {l m : List Nat} (hl : l.length = m.length) (h : ∀ i, i < m.length → l.getD i 0 = m.getD i 0) : l = m := by
  apply List.ext_getElem hl
  intro i h1 h2
  have := h i h2
  rwa [List.getD_eq_getElem?_getD, List.getD_eq_getElem?_getD, List.getElem?_eq_getElem h1, List.getElem?_eq_getElem h2] at this

theorem getD_set_ne' {l : List Nat} {k i v : Nat} (h : k ≠ i) : (l.set k v).getD i 0 = l.getD i 0 := by
  rw [List.getD_eq_getElem?_getD, List.getElem?_set_ne h, List.getD_eq_getElem?_getD]

/-- `normAxes` on batch axes. -/
theorem normAxes_nat {ks : List Nat} {nd : Nat} (h : ∀ k ∈ ks, k < nd) (hn : ks.Nodup) : normAxes (ks.map Int.ofNat) nd = some ks := by
  unfold normAxes
  rw [mapM_normAxis h, Option.bind_some, if_pos hn]

/-- Position of record `j` before the axes `ks` of a batch of shape `b` were reversed. -/
def flipSrc (b ks j : List Nat) : List Nat :=
  (List.range b.length).map fun i => if i ∈ ks then b.getD i 0 - 1 - j.getD i 0 else j.getD i 0

theorem flipSrc_inB {b ks j : List Nat} (hj : InB b j) : InB b (flipSrc b ks j) := inB_map_range fun i hi => by
  have := inB_getD hj hi
  by_cases h : i ∈ ks
  · rw [if_pos h]; omega
  · rw [if_neg h]; exact this

theorem rev_rearranges (G : List Nat → Prop) {b ks : List Nat} (hks : ∀ k ∈ ks, k < b.length) :
    Rearranges (α := α) G b b (flipSrc b ks) fun a => some (rev a ks) := by
  intro r a _ ha hs
  refine ⟨_, rfl, ofFn_wf _ _, hs, fun j hj => ?_⟩
  refine ⟨flipSrc_inB hj, ?_⟩
  unfold rev
  rw [hs, sub_ofFn _ hj, sub_eq hs (flipSrc_inB hj)]
  refine ofFn_congr fun u hu => ?_
  congr 1
  rw [List.length_append, List.range_add, List.map_append]
  congr 1
  · refine List.map_congr_left fun i hi => ?_
    rw [List.mem_range] at hi
    rw [getD_append_left' _ hi, getD_append_left' _ (by rw [hj.length]; exact hi)]
  · rw [List.map_map, ← hu.length]
    conv => rhs; rw [← map_getD_range u]
    refine List.map_congr_left fun i hi => ?_
    rw [List.mem_range] at hi
    simp only [Function.comp_apply]
    rw [if_neg (fun hh => by have := hks _ hh; omega), List.getD_eq_getElem?_getD, List.getElem?_append_right (by rw [hj.length]; omega), hj.length,
      show b.length + i - b.length = i by omega, List.getD_eq_getElem?_getD]

theorem flip_rearranges (G : List Nat → Prop) {b ks : List Nat} (hks : ∀ k ∈ ks, k < b.length) (hn : ks.Nodup) :
    Rearranges (α := α) G b b (flipSrc b ks) fun a => flip a (some (ks.map Int.ofNat)) := by
  intro r a hG ha hs
  obtain ⟨w, h1, h2⟩ := rev_rearranges (α := α) G hks r a hG ha hs
  refine ⟨w, ?_, h2⟩
  unfold flip
  dsimp only
  rw [normAxes_nat (fun k hk => by have := hks k hk; rw [hs, List.length_append]; omega) hn]
  exact h1

/-! ## `roll` -/

theorem roll1_rearranges (G : List Nat → Prop) {b : List Nat} {k : Nat} (s : Int) (hk : k < b.length) :
    Rearranges (α := α) G b b (fun j => j.set k (((j.getD k 0 : Int) - s) % (b.getD k 0 : Int)).toNat) fun a => roll1 a s (k : Int) := by
  intro r a hG ha hs
  have hd : a.shape.getD k 0 = b.getD k 0 := by rw [hs, getD_append_left' _ hk]
  have hf : ∀ p, p < b.getD k 0 → (((p : Int) - s) % (b.getD k 0 : Int)).toNat < b.getD k 0 := fun p hp => by
    have h1 := Int.emod_lt_of_pos ((p : Int) - s) (b := (b.getD k 0 : Int)) (by omega)
    have h2 := Int.emod_nonneg ((p : Int) - s) (b := (b.getD k 0 : Int)) (by omega)
    omega
  obtain ⟨w, h1, h2, h3, h4⟩ := mapAxis_rearranges (α := α) G hk hf r a hG ha hs
  rw [set_getD_self] at h3 h4
  refine ⟨w, ?_, h2, h3, h4⟩
  unfold roll1
  dsimp only
  rw [normAxis_nat (by rw [hs, List.length_append]; omega), Option.map_some, hd]
  exact h1

/-- The sum of the shifts given for axis `i`. -/
def totalShift (ps : List (Int × Nat)) (i : Nat) : Int := ((ps.filter fun p => p.2 == i).map (·.1)).sum

/-- Position of record `j` before the shifts. -/
def rollSrc (b : List Nat) (ps : List (Int × Nat)) (j : List Nat) : List Nat :=
  (List.range b.length).map fun i => (((j.getD i 0 : Int) - totalShift ps i) % (b.getD i 0 : Int)).toNat

theorem rolls_rearranges (G : List Nat → Prop) {b : List Nat} {ps : List (Int × Nat)} (hps : ∀ p ∈ ps, p.2 < b.length) :
    Rearranges (α := α) G b b (rollSrc b ps) fun a => (ps.map fun p => (p.1, (p.2 : Int))).foldlM (fun a p => roll1 a p.1 p.2) a := by
  induction ps with
  | nil =>
    refine Rearranges.congr (Rearranges.ident G b) fun j hj => ?_
    simp only [id]
    unfold rollSrc
    rw [← hj.length]
    conv => rhs; rw [← map_getD_range j]
    refine List.map_congr_left fun i hi => ?_
    rw [List.mem_range] at hi
    have := inB_getD hj (ax := i) (by rw [← hj.length]; exact hi)
    simp only [totalShift, List.filter_nil, List.map_nil, List.sum_nil, Int.sub_zero]
    rw [Int.emod_eq_of_lt (by omega) (by omega)]
    omega
  | cons p ps ih =>
    have hp := hps p (by simp)
    have hc := (roll1_rearranges (α := α) G p.1 hp).comp (ih fun q hq => hps q (by simp [hq]))
    refine Rearranges.congr (f := _) ?_ (σ := fun j => (rollSrc b ps j).set p.2 ((((rollSrc b ps j).getD p.2 0 : Int) - p.1) % (b.getD p.2 0 : Int)).toNat) ?_
    · intro r a hG ha hs
      obtain ⟨w, h1, h2⟩ := hc r a hG ha hs
      refine ⟨w, ?_, h2⟩
      dsimp only
      rw [List.map_cons, List.foldlM_cons]
      exact h1
    · intro j hj
      apply ext_getD (by simp [rollSrc])
      intro i hi
      have hi' : i < b.length := by simpa [rollSrc] using hi
      have hjb := inB_getD hj hi'
      unfold rollSrc
      rw [getD_map_range hi']
      by_cases hpi : p.2 = i
      · subst hpi
        rw [getD_set_eq (by simpa using hi'), getD_map_range hi']
        have e : totalShift (p :: ps) p.2 = p.1 + totalShift ps p.2 := by simp [totalShift]
        have h2 := Int.emod_nonneg ((j.getD p.2 0 : Int) - totalShift ps p.2) (b := (b.getD p.2 0 : Int)) (by omega)
        rw [e, Int.toNat_of_nonneg h2, Int.emod_sub_emod]
        congr 2
        omega
      · rw [getD_set_ne' hpi, getD_map_range hi']
        have e : totalShift (p :: ps) i = totalShift ps i := by simp [totalShift, hpi]
        rw [e]

/-! ## `repeat` -/

theorem repeat_all_rearranges (G : List Nat → Prop) {b : List Nat} {k n : Nat} (hk : k < b.length) :
    Rearranges (α := α) G b (b.set k (b.getD k 0 * n)) (fun j => j.set k (j.getD k 0 / n)) fun a => repeatAxis a (.all n) (some (k : Int)) := by
  intro r a hG ha hs
  have hd : a.shape.getD k 0 = b.getD k 0 := by rw [hs, getD_append_left' _ hk]
  obtain ⟨w, h1, h2⟩ := mapAxis_rearranges (α := α) G (d' := b.getD k 0 * n) (f := fun p => p / n) hk
    (fun p hp => Nat.div_lt_of_lt_mul (by rwa [Nat.mul_comm] at hp)) r a hG ha hs
  refine ⟨w, ?_, h2⟩
  unfold repeatAxis
  simp only [Option.isNone_some, Bool.false_eq_true, if_false, Option.getD_some]
  rw [normAxis_nat (by rw [hs, List.length_append]; omega), Option.bind_some, hd]
  exact h1

theorem locate_lt {l : List Nat} {p : Nat} (h : p < l.sum) : (locate l p).1 < l.length := by
  obtain ⟨k, d, i, h1, h2, h3⟩ := locate_exists h
  rw [h3, locate_offset h1 h2]
  exact (List.getElem?_eq_some_iff.1 h1).1

theorem repeat_each_rearranges (G : List Nat → Prop) {b l l' : List Nat} {k : Nat} (hk : k < b.length)
    (hl : l' = if l.length = 1 then List.replicate (b.getD k 0) (l.getD 0 0) else l) (hlen : l'.length = b.getD k 0) :
    Rearranges (α := α) G b (b.set k l'.sum) (fun j => j.set k (locate l' (j.getD k 0)).1) fun a => repeatAxis a (.each l) (some (k : Int)) := by
  intro r a hG ha hs
  have hd : a.shape.getD k 0 = b.getD k 0 := by rw [hs, getD_append_left' _ hk]
  obtain ⟨w, h1, h2⟩ := mapAxis_rearranges (α := α) G (d' := l'.sum) (f := fun p => (locate l' p).1) hk
    (fun p hp => by rw [← hlen]; exact locate_lt hp) r a hG ha hs
  refine ⟨w, ?_, h2⟩
  unfold repeatAxis
  simp only [Option.isNone_some, Bool.false_eq_true, if_false, Option.getD_some]
  rw [normAxis_nat (by rw [hs, List.length_append]; omega), Option.bind_some, hd]
  rw [← hl, if_pos hlen]
  exact h1

/-! ## `rot90` -/

theorem swap_rearranges (G : List Nat → Prop) {b : List Nat} {p q : Nat} (hp : p < b.length) (hq : q < b.length) :
    Rearranges (α := α) G b ((b.set p (b.getD q 0)).set q (b.getD p 0)) (fun j => (j.set p (j.getD q 0)).set q (j.getD p 0))
      fun a => swapaxes a (p : Int) (q : Int) := by
  intro r a _ ha hs
  obtain ⟨z, h1, h2, h3, h4⟩ := swapaxes_spec hs hp hq
  refine ⟨z, h1, h2, h3, fun j hj => ?_⟩
  have hjl : j.length = b.length := by rw [hj.length]; simp
  have hbp : ((b.set p (b.getD q 0)).set q (b.getD p 0)).getD p 0 = b.getD q 0 := by
    by_cases h : q = p
    · subst h; rw [List.set_set, getD_set_eq hq]
    · rw [getD_set_ne' h, getD_set_eq hp]
  have hbq : ((b.set p (b.getD q 0)).set q (b.getD p 0)).getD q 0 = b.getD p 0 := getD_set_eq (by simpa using hq)
  have hswap : ((((j.set p (j.getD q 0)).set q (j.getD p 0)).set p (((j.set p (j.getD q 0)).set q (j.getD p 0)).getD q 0)).set q
      (((j.set p (j.getD q 0)).set q (j.getD p 0)).getD p 0)) = j := by
    apply ext_getD (by simp)
    intro i hi
    rw [getD_set_eq (l := j.set p (j.getD q 0)) (by simp; omega)]
    by_cases hqi : q = i
    · subst hqi
      rw [getD_set_eq (by simp; omega)]
      by_cases hpq : q = p
      · subst hpq; rw [List.set_set, getD_set_eq (by omega)]
      · rw [getD_set_ne' hpq, getD_set_eq (by omega)]
    · rw [getD_set_ne' hqi]
      by_cases hpi : p = i
      · subst hpi; rw [getD_set_eq (by simp; omega)]
      · rw [getD_set_ne' hpi, getD_set_ne' hqi, getD_set_ne' hpi]
  have hin : InB b ((j.set p (j.getD q 0)).set q (j.getD p 0)) := by
    rw [inB_iff]
    refine ⟨by simpa using hjl, fun i hi => ?_⟩
    by_cases hqi : q = i
    · subst hqi
      rw [getD_set_eq (by simp; omega)]
      have := inB_getD hj (ax := p) (by simpa using hp)
      rwa [hbp] at this
    · rw [getD_set_ne' hqi]
      by_cases hpi : p = i
      · subst hpi
        rw [getD_set_eq (by omega)]
        have := inB_getD hj (ax := q) (by simpa using hq)
        rwa [hbq] at this
      · rw [getD_set_ne' hpi]
        have := inB_getD hj (ax := i) (by simpa using hi)
        rwa [getD_set_ne' hqi, getD_set_ne' hpi] at this
  refine ⟨hin, ?_⟩
  have := h4 _ hin
  rw [hswap] at this
  exact this

theorem rot90_rearranges (G : List Nat → Prop) {b : List Nat} {p q : Nat} (k : Int) (hp : p < b.length) (hq : q < b.length) (hpq : p ≠ q) :
    Rearranges (α := α) G b (if k % 2 = 0 then b else (b.set p (b.getD q 0)).set q (b.getD p 0))
      (fun j =>
        if k % 4 = 0 then j
        else if k % 4 = 1 then (j.set p (j.getD q 0)).set q (b.getD q 0 - 1 - j.getD p 0)
        else if k % 4 = 2 then (j.set p (b.getD p 0 - 1 - j.getD p 0)).set q (b.getD q 0 - 1 - j.getD q 0)
        else (j.set p (b.getD p 0 - 1 - j.getD q 0)).set q (j.getD p 0))
      fun a => rot90 a k (p : Int) (q : Int) := by
  have hrev1 : ∀ (b : List Nat) (k : Nat) (j : List Nat), k < b.length → j.length = b.length → flipSrc b [k] j = j.set k (b.getD k 0 - 1 - j.getD k 0) := by
    intro b k j hk hj
    apply ext_getD (by simp [flipSrc, hj])
    intro i hi
    rw [List.length_set, hj] at hi
    unfold flipSrc
    rw [getD_map_range hi]
    by_cases h : k = i
    · subst h; rw [getD_set_eq (by omega)]; simp
    · rw [getD_set_ne' h, if_neg (by simpa using fun hh => h hh.symm)]
  have hnorm : ∀ r a, a.shape = b ++ r → rot90 a k (p : Int) (q : Int) = if k % 4 = 0 then some a
      else if k % 4 = 2 then some (rev (rev a [p]) [q])
      else if k % 4 = 1 then swapaxes (rev a [q]) p q
      else (swapaxes a p q).map fun z => rev z [q] := fun r (a : NArr α) hs => by
    unfold rot90
    rw [normAxis_nat (by rw [hs, List.length_append]; omega), normAxis_nat (by rw [hs, List.length_append]; omega)]
    simp only [Option.bind_some]
    rw [if_neg hpq]
  have hm : k % 4 = 0 ∨ k % 4 = 1 ∨ k % 4 = 2 ∨ k % 4 = 3 := by omega
  intro r a hG ha hs
  simp only [hnorm r a hs]
  rcases hm with h | h | h | h
  · simp only [h, show k % 2 = 0 by omega, if_true]
    exact Rearranges.ident G b r a hG ha hs
  · have hb : ¬ (k % 2 = 0) := by omega
    simp only [h, hb, if_false, if_true, show ¬ ((1 : Int) = 0) by omega, show ¬ ((1 : Int) = 2) by omega]
    have hc := (rev_rearranges (α := α) G (b := b) (ks := [q]) (by simpa using hq)).comp (swap_rearranges G hp hq)
    obtain ⟨w, h1, h2, h3, h4⟩ := hc r a hG ha hs
    refine ⟨w, h1, h2, h3, fun j hj => ?_⟩
    have hjl : j.length = b.length := by rw [hj.length]; simp
    have := h4 j hj
    dsimp only at this
    rw [hrev1 b q _ hq (by simpa using hjl), List.set_set, getD_set_eq (by simp; omega)] at this
    exact this
  · simp only [h, show k % 2 = 0 by omega, if_true, show ¬ ((2 : Int) = 0) by omega, show ¬ ((2 : Int) = 1) by omega, if_false]
    have hc := (rev_rearranges (α := α) G (b := b) (ks := [p]) (by simpa using hp)).comp (rev_rearranges G (ks := [q]) (by simpa using hq))
    obtain ⟨w, h1, h2, h3, h4⟩ := hc r a hG ha hs
    refine ⟨w, h1, h2, h3, fun j hj => ?_⟩
    have hjl : j.length = b.length := hj.length
    have := h4 j hj
    dsimp only at this
    rw [hrev1 b q _ hq hjl, hrev1 b p _ hp (by simpa using hjl), getD_set_ne' (fun hh => hpq hh.symm), List.set_comm _ _ (fun hh => hpq hh.symm)] at this
    exact this
  · have hb : ¬ (k % 2 = 0) := by omega
    simp only [h, hb, if_false, show ¬ ((3 : Int) = 0) by omega, show ¬ ((3 : Int) = 1) by omega, show ¬ ((3 : Int) = 2) by omega]
    have hc := (swap_rearranges (α := α) G hp hq).comp (rev_rearranges G (b := (b.set p (b.getD q 0)).set q (b.getD p 0)) (ks := [q]) (by simpa using hq))
    obtain ⟨w, h1, h2, h3, h4⟩ := hc r a hG ha hs
    refine ⟨w, ?_, h2, h3, fun j hj => ?_⟩
    · rw [← h1]
      dsimp only
      cases swapaxes a (p : Int) (q : Int) <;> rfl
    have hjl : j.length = b.length := by rw [hj.length]; simp
    have := h4 j hj
    have hbq : ((b.set p (b.getD q 0)).set q (b.getD p 0)).getD q 0 = b.getD p 0 := getD_set_eq (by simpa using hq)
    dsimp only at this
    rw [hrev1 _ q _ (by simpa using hq) (by simpa using hjl), hbq, getD_set_eq (by omega), getD_set_ne' (fun hh => hpq hh.symm)] at this
    rw [List.set_comm _ _ (fun hh => hpq hh.symm), List.set_set] at this
    exact this

end NArr
