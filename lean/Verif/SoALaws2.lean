import Verif.SoALaws

/-!
# C60, C61: iteration, indexing laws, and further operations that undo each other
-/

namespace SoA

open Agg NArr

variable {α : Type} [Inhabited α]

/-- If one field raises, so does the whole operation. -/
theorem treeMapM_none {β γ : Type} {f : β → Option γ} {x : Inst β} {v : β} (hv : v ∈ leaves x) (hf : f v = none) : treeMapM f x = none := by
  induction x with
  | nil => cases hv
  | leaf n w rest ih =>
    rcases List.mem_cons.1 hv with rfl | hp
    · simp only [treeMapM, hf, Option.bind_none]
    · simp only [treeMapM, ih hp, Option.map_none, Option.bind_fun_none]
  | nested n s rest ih1 ih2 =>
    rcases List.mem_append.1 hv with hp | hp
    · simp only [treeMapM, ih1 hp, Option.bind_none]
    · simp only [treeMapM, ih2 hp, Option.map_none, Option.bind_fun_none]

theorem item_cons {n k : Nat} {b u : List Nat} {c : Cls α} {x : Tree α} (h : Conf (n :: b) c x) (hk : k < n) (hu : InB b u) :
    item u (item [k] x) = item (k :: u) x := item_item (b := [n]) (b' := b) (j := [k]) h ⟨hk, trivial⟩ hu

/-! ## Integer indices -/

/-- Where an integer index lands: counted from the end if negative, then clamped to the batch. -/
def landsAt (n : Nat) (i : Int) : Nat := (max 0 (min (if i < 0 then i + n else i) ((n : Int) - 1))).toNat

theorem landsAt_lt {n : Nat} (hn : 0 < n) (i : Int) : landsAt n i < n := by
  unfold landsAt
  omega

/-- `x[i]` for any integer `i`, in range or not: the record the index lands at. -/
theorem getitem_clamped {n : Nat} {b : List Nat} {c : Cls α} {x : Tree α} (h : Conf (n :: b) c x) (hn : 0 < n) (i : Int) :
    getitem x (.basic [.int i]) = some (item [landsAt n i] x) ∧ Conf b c (item [landsAt n i] x) := by
  obtain ⟨z, hz, hc, hi⟩ := getitem_records h (I := .basic [.int i]) (R := ⟨[], 1, fun _ => [wrapIdx n i]⟩) rfl
  have hcl : clampIdx (n :: b) [wrapIdx n i] = [landsAt n i] := by
    have : clampIdx (n :: b) [wrapIdx n i] = [(max 0 (min (wrapIdx n i) ((n : Int) - 1))).toNat] := by cases b <;> rfl
    rw [this]
    rfl
  have := hi [] trivial (by
    simp only at *
    rw [hcl]
    exact ⟨landsAt_lt hn i, trivial⟩)
  simp only at this
  rw [hcl] at this
  have hz2 : z = item [landsAt n i] x := by
    rw [← this]
    unfold item
    symm
    exact treeMap_id fun a ha => sub_nil (conf_leaves hc a ha).1
  exact ⟨by rw [hz, hz2], by rw [← hz2]; exact hc⟩

/-! ## C60: iteration

The classes define `__getitem__` (indexing.py:179-194) but no `__iter__`, so Python iterates with the sequence protocol: `x[0]`, `x[1]`, … until an
`IndexError`. -/

/-- What the first `m` steps of `for r in x` produce; the loop ends at the first index that raises. -/
def iterSteps (x : Tree α) (m : Nat) : List (Tree α) :=
  (((List.range m).map fun (k : Nat) => getitem x (.basic [.int (k : Int)])).takeWhile Option.isSome).filterMap id

theorem iterSteps_of {x : Tree α} {f : Nat → Tree α} (h : ∀ k : Nat, getitem x (.basic [.int (k : Int)]) = some (f k)) (m : Nat) :
    iterSteps x m = (List.range m).map f := by
  unfold iterSteps
  rw [List.map_congr_left (g := fun k => some (f k)) fun k _ => h k]
  have : ∀ l : List Nat, ((l.map fun k => some (f k)).takeWhile Option.isSome).filterMap id = l.map f := fun l => by
    induction l with
    | nil => rfl
    | cons a l ih => simpa using ih
  exact this _

/-- **C60 (partial)**: the first `len(x)` steps of an iteration over a batched instance produce its records, in order.  The claim that the iteration
then ends is false: `iter_never_stops`. -/
theorem iter_records_partial {n : Nat} {b : List Nat} {c : Cls α} {x : Tree α} (hne : c ≠ .nil) (hc : c.HasFields) (h : Conf (n :: b) c x) (hn : 0 < n) :
    len c x = some n ∧ iterSteps x n = (List.range n).map fun k => item [k] x := by
  refine ⟨(derived_of_conf hne hc h).1, ?_⟩
  rw [iterSteps_of (f := fun k => item [landsAt n k] x) (fun k => (getitem_clamped h hn k).1)]
  refine List.map_congr_left fun k hk => ?_
  have hk := List.mem_range.1 hk
  have : landsAt n (k : Int) = k := by unfold landsAt; omega
  rw [this]

/-- **C60, negation**: iterating over a non-empty batched instance never ends; after the records it repeats the last one for ever. -/
theorem iter_never_stops {n : Nat} {b : List Nat} {c : Cls α} {x : Tree α} (h : Conf (n :: b) c x) (hn : 0 < n) (m : Nat) :
    iterSteps x (n + m) = ((List.range n).map fun k => item [k] x) ++ List.replicate m (item [n - 1] x) := by
  rw [iterSteps_of (f := fun k => item [landsAt n k] x) (fun k => (getitem_clamped h hn k).1), List.range_add, List.map_append, List.map_map]
  congr 1
  · refine List.map_congr_left fun k hk => ?_
    have hk := List.mem_range.1 hk
    have : landsAt n (k : Int) = k := by unfold landsAt; omega
    rw [this]
  · rw [List.eq_replicate_iff]
    refine ⟨by simp, fun y hy => ?_⟩
    obtain ⟨k, _, rfl⟩ := List.mem_map.1 hy
    have : landsAt n ((n + k : Nat) : Int) = n - 1 := by unfold landsAt; omega
    show item [landsAt n ((n + k : Nat) : Int)] x = _
    rw [this]

/-- A single record with a scalar field has `len(x) == 1`, but iterating over it produces nothing. -/
theorem iter_single {c : Cls α} {x : Tree α} (hne : c ≠ .nil) (hc : c.HasFields) (h : Conf [] c x) (hs : ∃ a ∈ leaves x, a.shape = []) (m : Nat) :
    len c x = some 1 ∧ iterSteps x m = [] := by
  refine ⟨(derived_of_conf hne hc h).1, ?_⟩
  have hnone : ∀ k : Nat, getitem x (.basic [.int (k : Int)]) = none := fun k => by
    obtain ⟨a, ha, hsh⟩ := hs
    exact treeMapM_none ha (by unfold index; rw [hsh]; rfl)
  unfold iterSteps
  rw [List.map_congr_left (g := fun _ => (none : Option (Tree α))) fun k _ => hnone k]
  cases m with
  | zero => rfl
  | succ m => simp [List.range_succ_eq_map]

example : Conf [2] demoSetC demoSetX ∧ iterSteps demoSetX 4 =
    [.leaf "a" ⟨[], [1]⟩ (.leaf "v" ⟨[2], [3, 4]⟩ .nil), .leaf "a" ⟨[], [2]⟩ (.leaf "v" ⟨[2], [5, 6]⟩ .nil),
      .leaf "a" ⟨[], [2]⟩ (.leaf "v" ⟨[2], [5, 6]⟩ .nil), .leaf "a" ⟨[], [2]⟩ (.leaf "v" ⟨[2], [5, 6]⟩ .nil)] := by
  refine ⟨⟨rfl, ⟨rfl, rfl⟩, rfl, ⟨rfl, rfl⟩, trivial⟩, by decide +kernel⟩

/-! ## C61: setting and getting -/

/-- **C61**: what was set is what is read. -/
theorem set_get {n : Nat} {b : List Nat} {c : Cls α} {x v : Tree α} {ord : List String → List (List Nat)} (hx : Conf (n :: b) c x) (hv : Conf b c v)
    {i : Int} (h1 : -(n : Int) ≤ i) (h2 : i < n) (ho : ∀ p, (ord p).Perm (indices [])) :
    getitem (atSet ord (.basic [.int i]) [] x v) (.basic [.int i]) = some v := by
  obtain ⟨k1, k2, _⟩ := at_set_int hx hv h1 h2 ho
  obtain ⟨z, g1, _, g3⟩ := getitem_int k1 h1 h2
  rw [g1, g3, k2]

/-- Records other than the one set are read as before. -/
theorem set_get_other {n : Nat} {b : List Nat} {c : Cls α} {x v : Tree α} {ord : List String → List (List Nat)} (hx : Conf (n :: b) c x) (hv : Conf b c v)
    {i j : Int} (h1 : -(n : Int) ≤ i) (h2 : i < n) (h3 : -(n : Int) ≤ j) (h4 : j < n) (hij : (if i < 0 then i + n else i) ≠ (if j < 0 then j + n else j))
    (ho : ∀ p, (ord p).Perm (indices [])) :
    getitem (atSet ord (.basic [.int i]) [] x v) (.basic [.int j]) = getitem x (.basic [.int j]) := by
  obtain ⟨k1, _, k3⟩ := at_set_int hx hv h1 h2 ho
  obtain ⟨z, g1, g2, g3⟩ := getitem_int k1 h3 h4
  obtain ⟨y, f1, f2, f3⟩ := getitem_int hx h3 h4
  rw [g1, f1]
  congr 1
  have hlt : (if j < 0 then (j + n).toNat else j.toNat) < n := by
    by_cases hj : j < 0
    · rw [if_pos hj]; omega
    · rw [if_neg hj]; omega
  have hne : (if j < 0 then (j + n).toNat else j.toNat) ≠ (if i < 0 then (i + n).toNat else i.toNat) := by
    by_cases hi : i < 0 <;> by_cases hj : j < 0 <;> simp only [hi, hj, if_true, if_false] at hij ⊢ <;> omega
  refine conf_ext g2 f2 fun u hu => ?_
  rw [g3, f3, item_cons k1 hlt hu, item_cons hx hlt hu]
  exact k3 _ hlt hne u hu

/-- **C61**: setting a record to itself changes nothing. -/
theorem get_set {n : Nat} {b : List Nat} {c : Cls α} {x : Tree α} {ord : List String → List (List Nat)} (hx : Conf (n :: b) c x)
    {i : Int} (h1 : -(n : Int) ≤ i) (h2 : i < n) (ho : ∀ p, (ord p).Perm (indices [])) :
    ((getitem x (.basic [.int i])).map fun v => atSet ord (.basic [.int i]) [] x v) = some x := by
  obtain ⟨v, g1, g2, g3⟩ := getitem_int hx h1 h2
  rw [g1, Option.map_some]
  congr 1
  obtain ⟨k1, k2, k3⟩ := at_set_int hx g2 h1 h2 ho
  refine conf_ext k1 hx fun j hj => ?_
  cases j with
  | nil => exact hj.elim
  | cons k u =>
    by_cases hk : k = (if i < 0 then (i + n).toNat else i.toNat)
    · have e1 := item_item (b := [n]) (b' := b) (j := [k]) (k := u) k1 ⟨hj.1, trivial⟩ hj.2
      have e2 := item_item (b := [n]) (b' := b) (j := [k]) (k := u) hx ⟨hj.1, trivial⟩ hj.2
      simp only [List.singleton_append] at e1 e2
      rw [← e1, ← e2, hk, k2, g3]
    · exact k3 k hj.1 hk u hj.2

/-- **C61**: the last of two updates of one record wins. -/
theorem set_set {n : Nat} {b : List Nat} {c : Cls α} {x v w : Tree α} {ord : List String → List (List Nat)} (hx : Conf (n :: b) c x) (hv : Conf b c v)
    (hw : Conf b c w) {i : Int} (h1 : -(n : Int) ≤ i) (h2 : i < n) (ho : ∀ p, (ord p).Perm (indices [])) :
    atSet ord (.basic [.int i]) [] (atSet ord (.basic [.int i]) [] x v) w = atSet ord (.basic [.int i]) [] x w := by
  obtain ⟨k1, k2, k3⟩ := at_set_int hx hv h1 h2 ho
  obtain ⟨l1, l2, l3⟩ := at_set_int k1 hw h1 h2 ho
  obtain ⟨m1, m2, m3⟩ := at_set_int hx hw h1 h2 ho
  refine conf_ext l1 m1 fun j hj => ?_
  cases j with
  | nil => exact hj.elim
  | cons k u =>
    by_cases hk : k = (if i < 0 then (i + n).toNat else i.toNat)
    · have e1 := item_item (b := [n]) (b' := b) (j := [k]) (k := u) l1 ⟨hj.1, trivial⟩ hj.2
      have e2 := item_item (b := [n]) (b' := b) (j := [k]) (k := u) m1 ⟨hj.1, trivial⟩ hj.2
      simp only [List.singleton_append] at e1 e2
      rw [← e1, ← e2, hk, l2, m2]
    · rw [l3 k hj.1 hk u hj.2, k3 k hj.1 hk u hj.2, m3 k hj.1 hk u hj.2]

/-- **C61**: updates of different records commute. -/
theorem set_comm {n : Nat} {b : List Nat} {c : Cls α} {x v w : Tree α} {ord : List String → List (List Nat)} (hx : Conf (n :: b) c x) (hv : Conf b c v)
    (hw : Conf b c w) {i j : Int} (h1 : -(n : Int) ≤ i) (h2 : i < n) (h3 : -(n : Int) ≤ j) (h4 : j < n)
    (hij : (if i < 0 then i + n else i) ≠ (if j < 0 then j + n else j)) (ho : ∀ p, (ord p).Perm (indices [])) :
    atSet ord (.basic [.int j]) [] (atSet ord (.basic [.int i]) [] x v) w = atSet ord (.basic [.int i]) [] (atSet ord (.basic [.int j]) [] x w) v := by
  obtain ⟨k1, k2, k3⟩ := at_set_int hx hv h1 h2 ho
  obtain ⟨l1, l2, l3⟩ := at_set_int k1 hw h3 h4 ho
  obtain ⟨p1, p2, p3⟩ := at_set_int hx hw h3 h4 ho
  obtain ⟨q1, q2, q3⟩ := at_set_int p1 hv h1 h2 ho
  have hne : (if j < 0 then (j + n).toNat else j.toNat) ≠ (if i < 0 then (i + n).toNat else i.toNat) := by
    by_cases hi : i < 0 <;> by_cases hj : j < 0 <;> simp only [hi, hj, if_true, if_false] at hij ⊢ <;> omega
  refine conf_ext l1 q1 fun s hs => ?_
  cases s with
  | nil => exact hs.elim
  | cons k u =>
    have join : ∀ {y : Tree α}, Conf (n :: b) c y → item (k :: u) y = item u (item [k] y) := fun {y} hy =>
      (item_item (b := [n]) (b' := b) (j := [k]) (k := u) hy ⟨hs.1, trivial⟩ hs.2).symm
    by_cases hki : k = (if i < 0 then (i + n).toNat else i.toNat)
    · rw [l3 k hs.1 (by rw [hki]; exact hne.symm) u hs.2, join k1, join q1, hki, k2, q2]
    · by_cases hkj : k = (if j < 0 then (j + n).toNat else j.toNat)
      · rw [q3 k hs.1 hki u hs.2, join l1, join p1, hkj, l2, p2]
      · rw [l3 k hs.1 hkj u hs.2, k3 k hs.1 hki u hs.2, q3 k hs.1 hki u hs.2, p3 k hs.1 hkj u hs.2]

/-! ## C61: taking apart and putting together -/

/-- **C61**: stacking the records of a batch gives the batch. -/
theorem stack_of_records {n : Nat} {b : List Nat} {c : Cls α} {x : Tree α} (hne : c ≠ .nil) (hc : c.HasFields) (h : Conf (n :: b) c x) (hn : 0 < n) :
    (((List.range n).mapM fun (k : Nat) => getitem x (.basic [.int (k : Int)])).bind fun rs => stack c rs 0) = some x := by
  have hm : ((List.range n).mapM fun (k : Nat) => getitem x (.basic [.int (k : Int)])) = some ((List.range n).map fun k => item [k] x) :=
    mapM_some fun k hk => by
      have hk := List.mem_range.1 hk
      rw [(getitem_clamped h hn k).1]
      have : landsAt n (k : Int) = k := by unfold landsAt; omega
      rw [this]
  rw [hm, Option.bind_some]
  have hcs : ∀ y ∈ (List.range n).map (fun k => item [k] x), Conf b c y := fun y hy => by
    obtain ⟨k, hk, rfl⟩ := List.mem_map.1 hy
    exact item_conf (b := [n]) h ⟨List.mem_range.1 hk, trivial⟩
  obtain ⟨z, h1, h2, h3⟩ := stack_records (ax := 0) hne hc (by simp; omega) hcs (Nat.zero_le _)
  have h1' : stack c ((List.range n).map fun k => item [k] x) 0 = some z := h1
  rw [h1']
  congr 1
  simp only [List.take_zero, List.drop_zero, List.nil_append, List.length_map, List.length_range] at h2 h3
  refine conf_ext h2 h fun j hj => ?_
  cases j with
  | nil => exact hj.elim
  | cons k u =>
    rw [h3 k (item [k] x) u (by rw [List.getElem?_map, List.getElem?_range hj.1]; rfl) hj.2, item_cons h hj.1 hj.2]

/-- **C61**: indexing a stack gives back what was stacked. -/
theorem stack_getitem {b : List Nat} {c : Cls α} {xs : List (Tree α)} (hne : c ≠ .nil) (hc : c.HasFields) (h : ∀ x ∈ xs, Conf b c x) {k : Nat} {x : Tree α}
    (hk : xs[k]? = some x) : ((stack c xs 0).bind fun z => getitem z (.basic [.int (k : Int)])) = some x := by
  have hkl : k < xs.length := (List.getElem?_eq_some_iff.1 hk).1
  obtain ⟨z, h1, h2, h3⟩ := stack_records (ax := 0) hne hc (by intro e; rw [e] at hkl; simp at hkl) h (Nat.zero_le _)
  have h1' : stack c xs 0 = some z := h1
  rw [h1', Option.bind_some]
  simp only [List.take_zero, List.drop_zero, List.nil_append] at h2 h3
  rw [(getitem_clamped h2 (by omega) k).1]
  have e : landsAt xs.length (k : Int) = k := by unfold landsAt; omega
  rw [e]
  congr 1
  refine conf_ext (item_conf (b := [xs.length]) h2 ⟨hkl, trivial⟩) (h x (List.mem_of_getElem? hk)) fun j hj => ?_
  rw [item_cons h2 hkl hj]
  exact h3 k x j hk hj

end SoA
