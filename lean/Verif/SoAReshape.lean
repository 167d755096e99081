import Verif.SoASplit

/-!
# C47: `reshape`, `flatten`, `transpose`, `swapaxes` move whole records
-/

namespace NArr

variable {α : Type} [Inhabited α]

theorem reshape_spec {a : NArr α} {b s r : List Nat} (ha : a.Wf) (hs : a.shape = b ++ r) (hsz : size s = size b) :
    ∃ z, reshape a (s ++ r) = some z ∧ z.Wf ∧ z.shape = s ++ r ∧
      ∀ j j', InB s j → InB b j' → ravel s j = ravel b j' → sub j z = sub j' a := by
  have he : size (s ++ r) = size a.shape := by rw [hs, size_append, size_append, hsz]
  unfold reshape
  rw [if_pos he]
  refine ⟨_, rfl, by unfold Wf at *; simp only; omega, rfl, fun j j' hj hj' hr => ?_⟩
  rw [sub_eq (a := ⟨s ++ r, a.data⟩) (b := s) (r := r) rfl hj, sub_eq hs hj']
  refine ofFn_congr fun i _ => ?_
  unfold get
  simp only
  rw [hs, ravel_append hj.length, ravel_append hj'.length, hr]

/-! ## Permutations of axes -/

/-- `p` lists every axis `0 … nd-1` once. -/
def IsAxisPerm (p : List Nat) (nd : Nat) : Prop := p.Perm (List.range nd)

theorem isPerm_of_perm {p : List Nat} {nd : Nat} (h : IsAxisPerm p nd) : isPerm p nd = true := by
  unfold isPerm
  rw [Bool.and_eq_true, List.all_eq_true]
  refine ⟨by have := h.length_eq; simpa using this, fun i hi => ?_⟩
  rw [List.contains_iff_mem]
  exact h.mem_iff.2 hi

theorem axisPerm_append {p : List Nat} {nd k : Nat} (h : IsAxisPerm p nd) : IsAxisPerm (p ++ (List.range k).map (nd + ·)) (nd + k) := by
  unfold IsAxisPerm at *
  rw [List.range_add]
  exact h.append_right _

theorem mapM_normAxis {p : List Nat} {nd : Nat} (h : ∀ ax ∈ p, ax < nd) : (p.map Int.ofNat).mapM (fun ax => normAxis ax nd) = some p := by
  induction p with
  | nil => rfl
  | cons ax p ih =>
    rw [List.map_cons, List.mapM_cons, show Int.ofNat ax = (ax : Int) from rfl, normAxis_nat (h ax (by simp)), ih fun q hq => h q (by simp [hq])]
    rfl

theorem getD_idxOf {p j : List Nat} {f : Nat → Nat} {ax : Nat} (h : ax ∈ p) (hj : j = p.map f) : j.getD (p.idxOf ax) 0 = f ax := by
  have hlt := List.idxOf_lt_length_of_mem h
  rw [hj, List.getD_eq_getElem?_getD, List.getElem?_map, List.getElem?_eq_getElem hlt, List.getElem_idxOf]
  rfl

theorem map_getD_range (k : List Nat) : (List.range k.length).map (fun ax => k.getD ax 0) = k := by
  apply List.ext_getElem (by simp)
  intro i h1 h2
  rw [List.getElem_map, List.getElem_range, List.getD_eq_getElem?_getD, List.getElem?_eq_getElem h2]
  rfl

theorem inB_perm {p b k : List Nat} (hp : ∀ ax ∈ p, ax < b.length) (hk : InB b k) : InB (p.map fun ax => b.getD ax 0) (p.map fun ax => k.getD ax 0) := by
  induction p with
  | nil => trivial
  | cons ax p ih => exact ⟨inB_getD hk (hp ax (by simp)), ih fun q hq => hp q (by simp [hq])⟩

/-- Transposing the leading axes by `p`. -/
theorem transpose_spec {a : NArr α} {b r p : List Nat} (hs : a.shape = b ++ r) (hp : IsAxisPerm p b.length) :
    ∃ z, transpose a (p.map Int.ofNat ++ (List.range r.length).map (fun (k : Nat) => ((b.length + k : Nat) : Int))) = some z ∧ z.Wf ∧
      z.shape = (p.map fun ax => b.getD ax 0) ++ r ∧ ∀ k, InB b k → sub (p.map fun ax => k.getD ax 0) z = sub k a := by
  have hlt : ∀ ax ∈ p, ax < b.length := fun ax h => List.mem_range.1 (hp.mem_iff.1 h)
  have hfull := axisPerm_append (k := r.length) hp
  have haxes : p.map Int.ofNat ++ (List.range r.length).map (fun (k : Nat) => ((b.length + k : Nat) : Int)) =
      (p ++ (List.range r.length).map (b.length + ·)).map Int.ofNat := by
    rw [List.map_append, List.map_map]
    rfl
  have hlen : a.shape.length = b.length + r.length := by rw [hs, List.length_append]
  unfold transpose
  rw [haxes, hlen, mapM_normAxis (fun ax h => List.mem_range.1 (hfull.mem_iff.1 h))]
  simp only [Option.bind_some]
  rw [if_pos (isPerm_of_perm hfull), hs]
  have hshape : (p ++ (List.range r.length).map (b.length + ·)).map (fun ax => (b ++ r).getD ax 0) = (p.map fun ax => b.getD ax 0) ++ r := by
    rw [List.map_append, List.map_map]
    congr 1
    · exact List.map_congr_left fun ax h => getD_append_left' _ (hlt ax h)
    · have e : (List.range r.length).map ((fun ax => (b ++ r).getD ax 0) ∘ (b.length + ·)) = (List.range r.length).map fun ax => r.getD ax 0 := by
        apply List.map_congr_left
        intro k _
        simp only [Function.comp_apply]
        rw [List.getD_eq_getElem?_getD, List.getElem?_append_right (by omega), show b.length + k - b.length = k by omega, List.getD_eq_getElem?_getD]
      rw [e, map_getD_range]
  rw [hshape]
  refine ⟨_, rfl, ofFn_wf _ _, rfl, fun k hk => ?_⟩
  rw [sub_ofFn _ (inB_perm hlt hk), sub_eq hs hk]
  refine ofFn_congr fun u hu => ?_
  congr 1
  have hku : (k ++ u).length = b.length + r.length := by rw [List.length_append, hk.length, hu.length]
  have hidx : (p.map fun ax => k.getD ax 0) ++ u = (p ++ (List.range r.length).map (b.length + ·)).map fun ax => (k ++ u).getD ax 0 := by
    rw [List.map_append, List.map_map]
    congr 1
    · exact List.map_congr_left fun ax h => (getD_append_left' _ (by rw [hk.length]; exact hlt ax h)).symm
    · have e : (List.range r.length).map ((fun ax => (k ++ u).getD ax 0) ∘ (b.length + ·)) = (List.range u.length).map fun ax => u.getD ax 0 := by
        rw [hu.length]
        apply List.map_congr_left
        intro q _
        simp only [Function.comp_apply]
        rw [List.getD_eq_getElem?_getD, List.getElem?_append_right (by rw [hk.length]; omega), hk.length, show b.length + q - b.length = q by omega,
          List.getD_eq_getElem?_getD]
      rw [e, map_getD_range]
  have hmem : ∀ ax, ax < b.length + r.length → ax ∈ p ++ (List.range r.length).map (b.length + ·) := fun ax h => hfull.mem_iff.2 (List.mem_range.2 h)
  have hfin : (List.range (b.length + r.length)).map (fun ax =>
      ((p.map fun ax => k.getD ax 0) ++ u).getD ((p ++ (List.range r.length).map (b.length + ·)).idxOf ax) 0) =
      (List.range (k ++ u).length).map fun ax => (k ++ u).getD ax 0 := by
    rw [hku]
    apply List.map_congr_left
    intro ax hax
    exact getD_idxOf (hmem ax (List.mem_range.1 hax)) hidx
  first | rw [hfin, map_getD_range] | (rw [List.length_append, hfin, map_getD_range])

theorem swapaxes_spec {a : NArr α} {b r : List Nat} {p q : Nat} (hs : a.shape = b ++ r) (hp : p < b.length) (hq : q < b.length) :
    ∃ z, swapaxes a (p : Int) (q : Int) = some z ∧ z.Wf ∧ z.shape = (b.set p (b.getD q 0)).set q (b.getD p 0) ++ r ∧
      ∀ k, InB b k → sub ((k.set p (k.getD q 0)).set q (k.getD p 0)) z = sub k a := by
  unfold swapaxes
  rw [hs, normAxis_nat (by rw [List.length_append]; omega), normAxis_nat (by rw [List.length_append]; omega)]
  simp only [Option.bind_some, Option.map_some]
  rw [getD_append_left' _ hp, getD_append_left' _ hq, List.set_append_left _ _ hp, List.set_append_left _ _ (by rw [List.length_set]; exact hq)]
  refine ⟨_, rfl, ofFn_wf _ _, rfl, fun k hk => ?_⟩
  have hkl := hk.length
  have hin : InB ((b.set p (b.getD q 0)).set q (b.getD p 0)) ((k.set p (k.getD q 0)).set q (k.getD p 0)) :=
    inB_set (inB_set hk (inB_getD hk hq)) (inB_getD hk hp)
  rw [sub_ofFn _ hin, sub_eq hs hk]
  refine ofFn_congr fun u _ => ?_
  have hl1 : ((k.set p (k.getD q 0)).set q (k.getD p 0)).length = b.length := by simp [hkl]
  rw [getD_append_left' _ (by omega), getD_append_left' _ (by omega), List.set_append_left _ _ (by omega),
    List.set_append_left _ _ (by rw [List.length_set]; omega)]
  congr 1
  congr 1
  apply List.ext_getElem?
  intro i
  rw [getD_set_eq (by simp [hkl]; exact hq)]
  by_cases hpq : p = q
  · subst hpq
    rw [getD_set_eq (by simp [hkl]; exact hp), List.set_set, List.set_set, List.set_set, set_getD_self]
  · have e : ((k.set p (k.getD q 0)).set q (k.getD p 0)).getD p 0 = k.getD q 0 := by
      rw [List.getD_eq_getElem?_getD, List.getElem?_set_ne (fun h => hpq h.symm), List.getElem?_set_self (by omega), Option.getD_some]
    rw [e]
    by_cases hiq : i = q
    · subst hiq
      rw [List.getElem?_set_self (by simp; omega), List.getD_eq_getElem?_getD, List.getElem?_eq_getElem (by omega), Option.getD_some]
    · rw [List.getElem?_set_ne (fun h => hiq h.symm)]
      by_cases hip : i = p
      · subst hip
        rw [List.getElem?_set_self (by simp; omega), List.getD_eq_getElem?_getD, List.getElem?_eq_getElem (by omega), Option.getD_some]
      · rw [List.getElem?_set_ne (fun h => hip h.symm), List.getElem?_set_ne (fun h => hiq h.symm), List.getElem?_set_ne (fun h => hip h.symm)]

end NArr

namespace SoA

open Agg NArr

variable {α : Type} [Inhabited α]

/-! ## The shape with -1 -/

theorem foldl_mul (l : List Int) (z : Int) : l.foldl (· * ·) z = z * l.foldl (· * ·) 1 := by
  induction l generalizing z with
  | nil => simp
  | cons x l ih => rw [List.foldl_cons, List.foldl_cons, ih, ih (1 * x), Int.one_mul, Int.mul_assoc]

theorem foldl_size (s : List Nat) : (s.map Int.ofNat).foldl (· * ·) 1 = (size s : Int) := by
  induction s with
  | nil => rfl
  | cons d s ih =>
    rw [List.map_cons, List.foldl_cons, foldl_mul, ih, Int.one_mul, size_cons, Int.natCast_mul]
    rfl

/-- **C47, inference of -1.**  A shape of natural numbers is accepted iff it has as many elements; `-1` among natural numbers is replaced by the
quotient iff their product is positive and divides the number of elements; two `-1` are refused. -/
theorem inferShape_spec (total : Nat) :
    (∀ s : List Nat, inferShape total (s.map Int.ofNat) = if size s = total then some (s.map Int.ofNat) else none) ∧
    (∀ l r : List Nat, inferShape total (l.map Int.ofNat ++ -1 :: r.map Int.ofNat) =
      if size l * size r ≠ 0 ∧ total % (size l * size r) = 0 then some ((l ++ total / (size l * size r) :: r).map Int.ofNat) else none) ∧
    (∀ new : List Int, 1 < new.count (-1) → inferShape total new = none) := by
  have hnm : ∀ s : List Nat, (-1 : Int) ∉ s.map Int.ofNat := fun s h => by
    obtain ⟨d, _, hd⟩ := List.mem_map.1 h
    have : ((d : Nat) : Int) = -1 := hd
    omega
  have hne : ∀ s : List Nat, ∀ x ∈ s.map Int.ofNat, x ≠ -1 := fun s x hx e => hnm s (e ▸ hx)
  refine ⟨fun s => ?_, fun l r => ?_, fun new h => ?_⟩
  · unfold inferShape
    simp only
    rw [if_neg (by rw [List.contains_iff_mem]; exact hnm s)]
    simp only [Option.bind_some]
    rw [foldl_size]
    by_cases h : size s = total
    · rw [if_pos (by omega), if_pos h]
    · rw [if_neg (by omega), if_neg h]
  · have hcount : (l.map Int.ofNat ++ -1 :: r.map Int.ofNat).count (-1) = 1 := by
      rw [List.count_append, List.count_cons_self, List.count_eq_zero.2 (hnm l), List.count_eq_zero.2 (hnm r)]
    have hfilt : (l.map Int.ofNat ++ -1 :: r.map Int.ofNat).filter (fun x => decide (x ≠ -1)) = (l ++ r).map Int.ofNat := by
      rw [List.filter_append, List.filter_cons]
      simp only [ne_eq, not_true_eq_false, decide_false, Bool.false_eq_true, if_false]
      rw [List.filter_eq_self.2 fun x hx => by simpa using hne l x hx, List.filter_eq_self.2 fun x hx => by simpa using hne r x hx, List.map_append]
    have hmap : ∀ v : Int, (l.map Int.ofNat ++ -1 :: r.map Int.ofNat).map (fun d => if d = -1 then v else d) = l.map Int.ofNat ++ v :: r.map Int.ofNat := fun v => by
      rw [List.map_append, List.map_cons, if_pos rfl]
      congr 1
      · conv => rhs; rw [← List.map_id (l.map Int.ofNat)]
        exact List.map_congr_left fun x hx => by rw [if_neg (hne l x hx)]; rfl
      · congr 1
        conv => rhs; rw [← List.map_id (r.map Int.ofNat)]
        exact List.map_congr_left fun x hx => by rw [if_neg (hne r x hx)]; rfl
    unfold inferShape
    simp only
    rw [if_pos (by rw [List.contains_iff_mem]; simp), if_neg (by rw [hcount]; omega), hfilt, foldl_size, size_append]
    by_cases h0 : size l * size r = 0
    · rw [if_pos (by rw [h0]; rfl), if_neg (by simp [h0])]
      rfl
    · rw [if_neg (by omega)]
      have hmod : (total : Int).fmod ((size l * size r : Nat) : Int) = ((total % (size l * size r) : Nat) : Int) := by
        rw [Int.fmod_eq_emod_of_nonneg _ (by omega)]; rfl
      have hdiv : (total : Int).fdiv ((size l * size r : Nat) : Int) = ((total / (size l * size r) : Nat) : Int) := by
        rw [Int.fdiv_eq_ediv_of_nonneg _ (by omega)]; rfl
      rw [hmod, hdiv, hmap]
      by_cases hd : total % (size l * size r) = 0
      · rw [if_neg (by omega), if_pos ⟨h0, hd⟩]
        simp only [Option.bind_some]
        have e : l.map Int.ofNat ++ ((total / (size l * size r) : Nat) : Int) :: r.map Int.ofNat = (l ++ total / (size l * size r) :: r).map Int.ofNat := by
          rw [List.map_append, List.map_cons]; rfl
        rw [e, foldl_size, if_pos]
        rw [size_append, size_cons]
        have := Nat.div_add_mod total (size l * size r)
        rw [hd, Nat.add_zero] at this
        have e2 : size l * (total / (size l * size r) * size r) = size l * size r * (total / (size l * size r)) := by
          rw [Nat.mul_comm (total / (size l * size r)), Nat.mul_assoc]
        rw [e2, this]
      · rw [if_pos (by omega), if_neg (fun h => hd h.2)]
        rfl
  · unfold inferShape
    simp only
    rw [if_pos (by rw [List.contains_iff_mem]; exact List.count_pos_iff.1 (by omega)), if_pos h]
    rfl

/-! ## `reshape`, `flatten` -/

/-- **C47, `reshape`.**  For every class with fields and batched instance: if the new shape is accepted (`inferShape_spec`), with the natural numbers
`s`, the result has batch shape `s` and holds the same records in the same row-major order. -/
theorem reshape_records {b s : List Nat} {c : Cls α} {x : Tree α} {new : List Int} (hne : c ≠ .nil) (hc : c.HasFields) (h : Conf b c x) (hb : b ≠ [])
    (hs : inferShape (size b) new = some (s.map Int.ofNat)) :
    ∃ z, reshape c x new = some z ∧ Conf s c z ∧ size s = size b ∧
      ∀ j j', InB s j → InB b j' → ravel s j = ravel b j' → item j z = item j' x := by
  have hsz : size s = size b := by
    have h1 := (inferShape_spec (size b)).1 s
    have : (s.map Int.ofNat).foldl (· * ·) 1 = (size b : Int) := by
      unfold inferShape at hs
      simp only at hs
      rw [Option.bind_eq_some_iff] at hs
      obtain ⟨s', _, h2⟩ := hs
      by_cases he : s'.foldl (· * ·) 1 = (size b : Int)
      · rw [if_pos he] at h2; cases h2; exact he
      · rw [if_neg he] at h2; cases h2
    rw [foldl_size] at this
    omega
  cases b with
  | nil => exact absurd rfl hb
  | cons d b =>
    unfold reshape
    rw [batchShape_of_conf hne hc h]
    simp only [Option.bind_some]
    rw [hs]
    simp only [Option.bind_some]
    have hall : (s.map Int.ofNat).all (fun x => decide (0 ≤ x)) = true := by
      rw [List.all_eq_true]
      intro x hx
      obtain ⟨k, _, rfl⟩ := List.mem_map.1 hx
      simp
    have hto : (s.map Int.ofNat).map Int.toNat = s := by
      rw [List.map_map, show (Int.toNat ∘ Int.ofNat) = id from rfl, List.map_id]
    have hleaf : ∀ r (a : NArr α), a.Wf → a.shape = (d :: b) ++ r → ∃ z, (if a.shape.length < b.length + 1 then some a else
        reshapeInt a (s.map Int.ofNat) (a.shape.drop (b.length + 1))) = some z ∧ z.Wf ∧ z.shape = s ++ r ∧
        ∀ j j', InB s j → InB (d :: b) j' → ravel s j = ravel (d :: b) j' → sub j z = sub j' a := fun r a ha has => by
      have hd : a.shape.drop (b.length + 1) = r := by rw [has, show b.length + 1 = (d :: b).length from rfl, List.drop_left]
      rw [if_neg (by rw [has]; simp), hd]
      unfold reshapeInt
      rw [if_pos hall, hto]
      exact reshape_spec ha has hsz
    obtain ⟨z, hz, hzc⟩ := mapM_spec (b' := s) h fun r a ha has => by
      obtain ⟨z, h1, h2, h3, _⟩ := hleaf r a ha has
      exact ⟨z, h1, h2, h3⟩
    refine ⟨z, hz, hzc, hsz, fun j j' hj hj' hr => mapM_item h hz fun r a w ha has hw => ?_⟩
    obtain ⟨z', g1, _, _, g4⟩ := hleaf r a ha has
    rw [g1] at hw
    cases hw
    exact g4 j j' hj hj' hr

/-- Whatever `reshape` accepts has the same number of records. -/
theorem reshape_keeps_size {b : List Nat} {c : Cls α} {x z : Tree α} {new : List Int} (hne : c ≠ .nil) (hc : c.HasFields) (h : Conf b c x)
    (hz : reshape c x new = some z) : ∃ s, Conf s c z ∧ size s = size b ∧ inferShape (size b) new = some (s.map Int.ofNat) := by
  have hz0 := hz
  unfold reshape at hz
  rw [batchShape_of_conf hne hc h] at hz
  simp only [Option.bind_some] at hz
  cases b with
  | nil => cases hz
  | cons d b =>
    simp only at hz
    rw [Option.bind_eq_some_iff] at hz
    obtain ⟨s', hs', ht⟩ := hz
    by_cases hall : s'.all (fun x => decide (0 ≤ x)) = true
    · have he : (s'.map Int.toNat).map Int.ofNat = s' := by
        rw [List.map_map]
        conv => rhs; rw [← List.map_id s']
        apply List.map_congr_left
        intro x hx
        have := List.all_eq_true.1 hall x hx
        simp only [decide_eq_true_eq] at this
        show ((x.toNat : Nat) : Int) = x
        omega
      rw [← he] at hs'
      obtain ⟨z', g1, g2, g3, _⟩ := reshape_records hne hc h (by simp) hs'
      rw [hz0] at g1
      cases g1
      exact ⟨_, g2, g3, hs'⟩
    · exfalso
      have hl := leaves_ne_nil hne hc h
      cases hlx : leaves x with
      | nil => exact hl hlx
      | cons a as =>
        obtain ⟨_, r, hr⟩ := conf_leaves h a (by rw [hlx]; simp)
        have hn : (if a.shape.length < b.length + 1 then some a else reshapeInt a s' (a.shape.drop (b.length + 1))) = none := by
          rw [if_neg (by rw [hr]; simp)]
          unfold reshapeInt
          rw [if_neg hall]
        have := leaves_mapM ht a (by rw [hlx]; simp)
        rw [hn] at this
        obtain ⟨w, hw⟩ := this
        cases hw

/-- **C47, `flatten`**: one batch axis, the records in row-major order. -/
theorem flatten_records {b : List Nat} {c : Cls α} {x : Tree α} (hne : c ≠ .nil) (hc : c.HasFields) (h : Conf b c x) (hb : b ≠ []) :
    ∃ z, flatten c x = some z ∧ Conf [size b] c z ∧ ∀ j, InB b j → item [ravel b j] z = item j x := by
  cases b with
  | nil => exact absurd rfl hb
  | cons d b =>
    unfold flatten
    rw [batchShape_of_conf hne hc h]
    simp only [Option.bind_some]
    have hleaf : ∀ r (a : NArr α), a.Wf → a.shape = (d :: b) ++ r → ∃ z, (if a.shape.length < b.length + 1 then some a else
        NArr.reshape a (size (d :: b) :: a.shape.drop (b.length + 1))) = some z ∧ z.Wf ∧ z.shape = [size (d :: b)] ++ r ∧
        ∀ j j', InB [size (d :: b)] j → InB (d :: b) j' → ravel [size (d :: b)] j = ravel (d :: b) j' → sub j z = sub j' a := fun r a ha has => by
      have hd : a.shape.drop (b.length + 1) = r := by rw [has, show b.length + 1 = (d :: b).length from rfl, List.drop_left]
      rw [if_neg (by rw [has]; simp), hd]
      exact reshape_spec (s := [size (d :: b)]) ha has (by rw [size_cons, size_nil, Nat.mul_one])
    obtain ⟨z, hz, hzc⟩ := mapM_spec (b' := [size (d :: b)]) h fun r a ha has => by
      obtain ⟨z, h1, h2, h3, _⟩ := hleaf r a ha has
      exact ⟨z, h1, h2, h3⟩
    refine ⟨z, hz, hzc, fun j hj => mapM_item h hz fun r a w ha has hw => ?_⟩
    obtain ⟨z', g1, _, _, g4⟩ := hleaf r a ha has
    rw [g1] at hw
    cases hw
    exact g4 _ j ⟨ravel_lt hj, trivial⟩ hj (by simp [ravel])

/-- **C47, `flatten` after `reshape` is `flatten`** (for reshapes to at least one axis). -/
theorem flatten_reshape {b s : List Nat} {c : Cls α} {x : Tree α} {new : List Int} (hne : c ≠ .nil) (hc : c.HasFields) (h : Conf b c x) (hb : b ≠ [])
    (hs : inferShape (size b) new = some (s.map Int.ofNat)) (hs0 : s ≠ []) :
    ((reshape c x new).bind fun z => flatten c z) = flatten c x := by
  obtain ⟨z, h1, h2, h3, h4⟩ := reshape_records hne hc h hb hs
  obtain ⟨f, g1, g2, g3⟩ := flatten_records hne hc h hb
  obtain ⟨f', k1, k2, k3⟩ := flatten_records hne hc h2 hs0
  rw [h1, g1]
  simp only [Option.bind_some]
  rw [k1]
  congr 1
  rw [h3] at k2
  refine conf_ext k2 g2 fun j hj => ?_
  match j, hj with
  | [q], hj =>
    have hq : q < size b := hj.1
    have hq' : q < size s := by omega
    have e1 := g3 (unravel b q) (unravel_inB hq)
    have e2 := k3 (unravel s q) (unravel_inB hq')
    rw [ravel_unravel hq] at e1
    rw [ravel_unravel hq'] at e2
    rw [e1, e2]
    exact h4 _ _ (unravel_inB hq') (unravel_inB hq) (by rw [ravel_unravel hq, ravel_unravel hq'])
  | [], hj => exact hj.elim
  | _ :: _ :: _, hj => exact hj.2.elim

/-! ## `transpose`, `swapaxes` -/

/-- **C47, `transpose`.**  For every permutation `p` of the batch axes: record `k` of `x` is at the permuted position, as numpy does on an array of
records. -/
theorem transpose_records {b p : List Nat} {c : Cls α} {x : Tree α} {axes : Option (List Int)} (hne : c ≠ .nil) (hc : c.HasFields) (h : Conf b c x)
    (hp : IsAxisPerm p b.length) (ha : axes.getD ((List.range b.length).reverse.map Int.ofNat) = p.map Int.ofNat) :
    ∃ z, transposeInst c x axes = some z ∧ Conf (p.map fun ax => b.getD ax 0) c z ∧
      ∀ k, InB b k → item (p.map fun ax => k.getD ax 0) z = item k x := by
  unfold transposeInst
  rw [batchShape_of_conf hne hc h]
  simp only [Option.bind_some]
  rw [ha]
  have hleaf : ∀ r (a : NArr α), a.shape = b ++ r → (if a.shape.length < b.length then some a
      else if a.shape.length = b.length then NArr.transpose a (p.map Int.ofNat)
      else NArr.transpose a (p.map Int.ofNat ++ ((List.range (a.shape.length - b.length)).map fun (k : Nat) => ((b.length + k : Nat) : Int)))) =
      NArr.transpose a (p.map Int.ofNat ++ (List.range r.length).map (fun (k : Nat) => ((b.length + k : Nat) : Int))) := fun r a has => by
    have hl : a.shape.length = b.length + r.length := by rw [has, List.length_append]
    rw [if_neg (by omega)]
    by_cases hr : r.length = 0
    · rw [if_pos (by omega), hr]
      simp
    · rw [if_neg (by omega), show a.shape.length - b.length = r.length by omega]
  obtain ⟨z, hz, hzc⟩ := mapM_spec (b' := p.map fun ax => b.getD ax 0) h fun r a ha has => by
    obtain ⟨z, h1, h2, h3, _⟩ := transpose_spec has hp
    exact ⟨z, (hleaf r a has).trans h1, h2, h3⟩
  refine ⟨z, hz, hzc, fun k hk => mapM_item h hz fun r a w ha has hw => ?_⟩
  obtain ⟨z', g1, _, _, g4⟩ := transpose_spec has hp
  rw [hleaf r a has, g1] at hw
  cases hw
  exact g4 k hk

/-- Without `axes` the batch axes are reversed. -/
theorem transpose_default {b : List Nat} {c : Cls α} {x : Tree α} (hne : c ≠ .nil) (hc : c.HasFields) (h : Conf b c x) :
    ∃ z, transposeInst c x none = some z ∧ Conf b.reverse c z ∧ ∀ k, InB b k → item k.reverse z = item k x := by
  obtain ⟨z, h1, h2, h3⟩ := transpose_records (p := (List.range b.length).reverse) (axes := none) hne hc h (List.reverse_perm _) rfl
  refine ⟨z, h1, ?_, fun k hk => ?_⟩
  · rw [List.map_reverse, map_getD_range] at h2
    exact h2
  · have := h3 k hk
    rw [List.map_reverse, ← hk.length, map_getD_range] at this
    exact this

/-- **C47, `swapaxes`**, for batch axes `-ndim ≤ axis < ndim`; negative axes count from the end of the batch shape. -/
theorem swapaxes_records {b : List Nat} {c : Cls α} {x : Tree α} {ax1 ax2 : Int} {p q : Nat} (hne : c ≠ .nil) (hc : c.HasFields) (h : Conf b c x)
    (h1 : ax1 = p ∨ ax1 = (p : Int) - b.length) (h2 : ax2 = q ∨ ax2 = (q : Int) - b.length) (hp : p < b.length) (hq : q < b.length) :
    ∃ z, swapaxes c x ax1 ax2 = some z ∧ Conf ((b.set p (b.getD q 0)).set q (b.getD p 0)) c z ∧
      ∀ k, InB b k → item ((k.set p (k.getD q 0)).set q (k.getD p 0)) z = item k x := by
  have hn : ∀ {ax : Int} {p : Nat}, (ax = p ∨ ax = (p : Int) - b.length) → p < b.length → normAxis ax b.length = some p := by
    intro ax p hax hp
    unfold normAxis
    rcases hax with rfl | rfl
    · rw [if_pos (by omega)]; rfl
    · rw [if_neg (by omega), if_pos (by omega)]
      congr 1
      omega
  unfold swapaxes
  rw [batchShape_of_conf hne hc h]
  simp only [Option.bind_some]
  rw [hn h1 hp, hn h2 hq]
  simp only [Option.bind_some]
  have hleaf : ∀ r (a : NArr α), a.shape = b ++ r → (if a.shape.length < b.length then some a else NArr.swapaxes a p q) = NArr.swapaxes a p q := fun r a has => by
    rw [if_neg (by rw [has, List.length_append]; omega)]
  obtain ⟨z, hz, hzc⟩ := mapM_spec (b' := (b.set p (b.getD q 0)).set q (b.getD p 0)) h fun r a ha has => by
    obtain ⟨z, h1, h2, h3, _⟩ := swapaxes_spec has hp hq
    exact ⟨z, (hleaf r a has).trans h1, h2, h3⟩
  refine ⟨z, hz, hzc, fun k hk => mapM_item h hz fun r a w ha has hw => ?_⟩
  obtain ⟨z', g1, _, _, g4⟩ := swapaxes_spec has hp hq
  rw [hleaf r a has, g1] at hw
  cases hw
  exact g4 k hk

/-- `transpose` passes negative axes on to the fields, where they count from the end of the *field*: with intrinsic axes the call raises. -/
theorem transpose_negative_axes_raise :
    let x : Tree Nat := .leaf "v" ⟨[2, 2, 1], [1, 2, 3, 4]⟩ .nil
    let c : Cls Nat := .leaf "v" [1] (fun _ => ⟨[], [0]⟩) .nil
    transposeInst c x (some [-1, -2]) = none ∧ (transposeInst c x (some [1, 0])).isSome = true := by
  decide +kernel

/-- Non-trivial cases: six records with a scalar and a vector field, batch shape `(2, 3)`. -/
def demo6 : Tree Nat := .leaf "a" ⟨[2, 3], [0, 1, 2, 3, 4, 5]⟩ (.leaf "v" ⟨[2, 3, 2], [0, 1, 2, 3, 4, 5, 6, 7, 8, 9, 10, 11]⟩ .nil)

example : Conf [2, 3] demoSetC demo6 ∧
    reshape demoSetC demo6 [-1, 2] = some (.leaf "a" ⟨[3, 2], [0, 1, 2, 3, 4, 5]⟩ (.leaf "v" ⟨[3, 2, 2], [0, 1, 2, 3, 4, 5, 6, 7, 8, 9, 10, 11]⟩ .nil)) ∧
    flatten demoSetC demo6 = some (.leaf "a" ⟨[6], [0, 1, 2, 3, 4, 5]⟩ (.leaf "v" ⟨[6, 2], [0, 1, 2, 3, 4, 5, 6, 7, 8, 9, 10, 11]⟩ .nil)) ∧
    transposeInst demoSetC demo6 none = some (.leaf "a" ⟨[3, 2], [0, 3, 1, 4, 2, 5]⟩ (.leaf "v" ⟨[3, 2, 2], [0, 1, 6, 7, 2, 3, 8, 9, 4, 5, 10, 11]⟩ .nil)) ∧
    swapaxes demoSetC demo6 0 (-1) = transposeInst demoSetC demo6 none ∧ inferShape 6 [-1, 2] = some ([3, 2].map Int.ofNat) := by
  refine ⟨⟨rfl, ⟨rfl, rfl⟩, rfl, ⟨rfl, rfl⟩, trivial⟩, ?_, ?_, ?_, ?_, ?_⟩ <;> decide +kernel

end SoA
