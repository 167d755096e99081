import Verif.SoAAxisOps3
import Verif.SoAScalarOps

/-!
# C52: `atleast_nd`, `vstack`, `hstack`, `dstack`, `column_stack` of small batches of classes with scalar fields only

`small_batches_false` shows that these functions break up instances of classes with array fields when the batch has fewer axes than the function asks for.  Here: what they do
when every field is a scalar (also in nested classes).
-/

namespace SoA

open Agg NArr

variable {α : Type} [Inhabited α] {c : Cls α}

theorem confP_scalar {β : Type} {P : List Nat → β → Prop} {c : Cls α} {x : Inst β} (hs : c.Scalar) (h : ConfP P [] c x) : ConfP (fun r (_ : β) => r = []) [] c x := by
  induction x generalizing c with
  | nil =>
    cases c with
    | nil => trivial
    | leaf => exact h.elim
    | nested => exact h.elim
  | leaf n v rest ih =>
    cases c with
    | nil => exact h.elim
    | nested => exact h.elim
    | leaf n' ish d cr => exact ⟨h.1, by rw [hs.1]; rfl, ih hs.2 h.2.2⟩
  | nested n sub rest ih1 ih2 =>
    cases c with
    | nil => exact h.elim
    | leaf => exact h.elim
    | nested n' ish cs cr =>
      obtain ⟨h1, h2, h3⟩ := hs
      subst h1
      exact ⟨h.1, ih1 h2 h.2.1, ih2 h3 h.2.2⟩

/-- Another shape for the same data. -/
theorem reshape_rearranges {b b' : List Nat} {σ : List Nat → List Nat} {f : NArr α → NArr α} (hf : ∀ a : NArr α, a.shape = b → f a = ⟨b', a.data⟩)
    (hsz : size b' = size b) (hσ : ∀ j, InB b' j → InB b (σ j) ∧ ravel b' j = ravel b (σ j)) :
    Rearranges (fun r => r = []) b b' σ fun a => some (f a) := by
  intro r a hr ha hs
  subst hr
  rw [List.append_nil] at hs
  have hw : (⟨b', a.data⟩ : NArr α).Wf := by
    show a.data.length = size b'
    rw [hsz, ← hs]; exact ha
  refine ⟨_, rfl, by rw [hf a hs]; exact hw, by rw [hf a hs, List.append_nil], fun j hj => ⟨(hσ j hj).1, ?_⟩⟩
  rw [hf a hs, sub_eq (b := b') (r := []) (by simp) hj, sub_eq (b := b) (r := []) (by simp [hs]) (hσ j hj).1]
  refine ofFn_congr fun i hi => ?_
  have : i = [] := List.length_eq_zero_iff.1 hi.length
  subst this
  rw [List.append_nil, List.append_nil]
  show a.data.getD (ravel b' j) default = a.data.getD (ravel a.shape (σ j)) default
  rw [hs, (hσ j hj).2]

/-- A function on the fields that moves records. -/
theorem scalar_moves {b b' : List Nat} {σ : List Nat → List Nat} {f : NArr α → NArr α} (hf : Rearranges (fun r => r = []) b b' σ fun a => some (f a)) (hs : c.Scalar)
    {x : Tree α} (h : Conf b c x) : Conf b' c (treeMap f x) ∧ ∀ j, InB b' j → InB b (σ j) ∧ item j (treeMap f x) = item (σ j) x := by
  obtain ⟨z, h1, h2, h3⟩ := rearranges_inst hf ⟨[], rfl⟩ h (confP_scalar hs h)
  have e := treeMapM_some (f := fun a => some (f a)) (g := f) (x := x) fun _ _ => rfl
  rw [e] at h1
  cases h1
  exact ⟨h2, h3⟩

theorem inB_nil {j : List Nat} (h : InB [] j) : j = [] := List.length_eq_zero_iff.1 h.length

theorem inB_cons {d : Nat} {s j : List Nat} (h : InB (d :: s) j) : ∃ i t, j = i :: t ∧ i < d ∧ InB s t := by
  cases j with
  | nil => exact h.elim
  | cons i t => exact ⟨i, t, rfl, h.1, h.2⟩

/-! ## Shapes -/

/-- `atleast_1d`, `atleast_2d`, `atleast_3d` of batches with fewer axes: where the new axes go and which record is where. -/
inductive Grows : Nat → List Nat → List Nat → (List Nat → List Nat) → Prop
  | one : Grows 1 [] [1] fun _ => []
  | two0 : Grows 2 [] [1, 1] fun _ => []
  | two1 (n : Nat) : Grows 2 [n] [1, n] fun j => [j.getD 1 0]
  | three0 : Grows 3 [] [1, 1, 1] fun _ => []
  | three1 (n : Nat) : Grows 3 [n] [1, n, 1] fun j => [j.getD 1 0]
  | three2 (m n : Nat) : Grows 3 [m, n] [m, n, 1] fun j => [j.getD 0 0, j.getD 1 0]

/-- The three functions. -/
def atleastD {β : Type} (d : Nat) : NArr β → NArr β := if d = 1 then NArr.atleast1d else if d = 2 then NArr.atleast2d else NArr.atleast3d

theorem grows_rearranges {d : Nat} {b b' : List Nat} {σ : List Nat → List Nat} (h : Grows d b b' σ) :
    Rearranges (α := α) (fun r => r = []) b b' σ fun a => some (atleastD d a) := by
  cases h with
  | one =>
    refine reshape_rearranges (fun a ha => ?_) rfl fun j hj => ?_
    · show NArr.atleast1d a = _
      unfold NArr.atleast1d; rw [if_pos (by rw [ha]; rfl)]
    · obtain ⟨i, t, rfl, h1, h2⟩ := inB_cons hj
      have := inB_nil h2; subst this
      have : i = 0 := by omega
      subst this
      exact ⟨trivial, rfl⟩
  | two0 =>
    refine reshape_rearranges (fun a ha => ?_) rfl fun j hj => ?_
    · show NArr.atleast2d a = _
      unfold NArr.atleast2d; rw [ha]
    · obtain ⟨i, t, rfl, h1, h2⟩ := inB_cons hj
      obtain ⟨i', t, rfl, h1', h2⟩ := inB_cons h2
      have := inB_nil h2; subst this
      have : i = 0 := by omega
      subst this
      have : i' = 0 := by omega
      subst this
      exact ⟨trivial, rfl⟩
  | two1 n =>
    refine reshape_rearranges (fun a ha => ?_) (by simp [size]) fun j hj => ?_
    · show NArr.atleast2d a = _
      unfold NArr.atleast2d; rw [ha]
    · obtain ⟨i, t, rfl, h1, h2⟩ := inB_cons hj
      obtain ⟨i', t, rfl, h1', h2⟩ := inB_cons h2
      have := inB_nil h2; subst this
      have : i = 0 := by omega
      subst this
      have hin : InB [n] [i'] := ⟨h1', trivial⟩
      exact ⟨hin, by simp [ravel]⟩
  | three0 =>
    refine reshape_rearranges (fun a ha => ?_) rfl fun j hj => ?_
    · show NArr.atleast3d a = _
      unfold NArr.atleast3d; rw [ha]
    · obtain ⟨i, t, rfl, h1, h2⟩ := inB_cons hj
      obtain ⟨i', t, rfl, h1', h2⟩ := inB_cons h2
      obtain ⟨i'', t, rfl, h1'', h2⟩ := inB_cons h2
      have := inB_nil h2; subst this
      have : i = 0 := by omega
      subst this
      have : i' = 0 := by omega
      subst this
      have : i'' = 0 := by omega
      subst this
      exact ⟨trivial, rfl⟩
  | three1 n =>
    refine reshape_rearranges (fun a ha => ?_) (by simp [size]) fun j hj => ?_
    · show NArr.atleast3d a = _
      unfold NArr.atleast3d; rw [ha]
    · obtain ⟨i, t, rfl, h1, h2⟩ := inB_cons hj
      obtain ⟨i', t, rfl, h1', h2⟩ := inB_cons h2
      obtain ⟨i'', t, rfl, h1'', h2⟩ := inB_cons h2
      have := inB_nil h2; subst this
      have : i = 0 := by omega
      subst this
      have : i'' = 0 := by omega
      subst this
      have hin : InB [n] [i'] := ⟨h1', trivial⟩
      exact ⟨hin, by simp [ravel]⟩
  | three2 m n =>
    refine reshape_rearranges (fun a ha => ?_) (by simp [size]) fun j hj => ?_
    · show NArr.atleast3d a = _
      unfold NArr.atleast3d; rw [ha]
    · obtain ⟨i, t, rfl, h1, h2⟩ := inB_cons hj
      obtain ⟨i', t, rfl, h1', h2⟩ := inB_cons h2
      obtain ⟨i'', t, rfl, h1'', h2⟩ := inB_cons h2
      have := inB_nil h2; subst this
      have : i'' = 0 := by omega
      subst this
      have hin : InB [m, n] [i, i'] := ⟨h1, h1', trivial⟩
      exact ⟨hin, by simp [ravel, size]⟩

/-- **C52, `atleast_1d/2d/3d`** of batches with fewer axes, for classes with scalar fields only: the result is a batch with the new axes of length 1 where NumPy puts
them, and every record is kept: `atleast_2d` puts a new axis in front, `atleast_3d` of a vector one on each side, of a matrix one at the end. -/
theorem atleast_small (hs : c.Scalar) {x : Tree α} :
    (Conf [] c x → Conf [1] c (atleast1d x) ∧ item [0] (atleast1d x) = item [] x) ∧
    (Conf [] c x → Conf [1, 1] c (atleast2d x) ∧ item [0, 0] (atleast2d x) = item [] x) ∧
    (∀ n, Conf [n] c x → Conf [1, n] c (atleast2d x) ∧ ∀ i, i < n → item [0, i] (atleast2d x) = item [i] x) ∧
    (Conf [] c x → Conf [1, 1, 1] c (atleast3d x) ∧ item [0, 0, 0] (atleast3d x) = item [] x) ∧
    (∀ n, Conf [n] c x → Conf [1, n, 1] c (atleast3d x) ∧ ∀ i, i < n → item [0, i, 0] (atleast3d x) = item [i] x) ∧
    ∀ m n, Conf [m, n] c x → Conf [m, n, 1] c (atleast3d x) ∧ ∀ i j, i < m → j < n → item [i, j, 0] (atleast3d x) = item [i, j] x := by
  have z : 0 < 1 := Nat.one_pos
  refine ⟨fun h => ?_, fun h => ?_, fun n h => ?_, fun h => ?_, fun n h => ?_, fun m n h => ?_⟩
  · obtain ⟨h1, h2⟩ := scalar_moves (grows_rearranges .one) hs h
    exact ⟨h1, (h2 [0] ⟨z, trivial⟩).2⟩
  · obtain ⟨h1, h2⟩ := scalar_moves (grows_rearranges .two0) hs h
    exact ⟨h1, (h2 [0, 0] ⟨z, z, trivial⟩).2⟩
  · obtain ⟨h1, h2⟩ := scalar_moves (grows_rearranges (.two1 n)) hs h
    exact ⟨h1, fun i hi => (h2 [0, i] ⟨z, hi, trivial⟩).2⟩
  · obtain ⟨h1, h2⟩ := scalar_moves (grows_rearranges .three0) hs h
    exact ⟨h1, (h2 [0, 0, 0] ⟨z, z, z, trivial⟩).2⟩
  · obtain ⟨h1, h2⟩ := scalar_moves (grows_rearranges (.three1 n)) hs h
    exact ⟨h1, fun i hi => (h2 [0, i, 0] ⟨z, hi, z, trivial⟩).2⟩
  · obtain ⟨h1, h2⟩ := scalar_moves (grows_rearranges (.three2 m n)) hs h
    exact ⟨h1, fun i j hi hj => (h2 [i, j, 0] ⟨hi, hj, z, trivial⟩).2⟩

/-! ## Joining -/

theorem transpose_treeMap {β γ : Type} (g : β → γ) (x : Inst β) (ys : List (Inst β)) :
    SoA.transpose (treeMap g x) (ys.map (treeMap g)) = (SoA.transpose x ys).map (treeMap fun l => l.map g) := by
  induction ys generalizing x with
  | nil =>
    simp only [List.map_nil, SoA.transpose, Option.map_some, treeMap_comp, List.map_cons]
  | cons y ys ih =>
    simp only [List.map_cons, SoA.transpose, ih]
    cases ht : SoA.transpose y ys with
    | none => rfl
    | some t =>
      simp only [Option.map_some, Option.bind_some, zip_treeMap, Option.map_map]
      cases zip x t with
      | none => rfl
      | some z => simp only [Option.map_some, Function.comp, treeMap_comp, List.map_cons]

omit [Inhabited α] in
theorem treeMapM_congr {β γ : Type} {f g : β → Option γ} {x : Inst β} (h : ∀ v ∈ leaves x, f v = g v) : treeMapM f x = treeMapM g x := by
  induction x with
  | nil => rfl
  | leaf n v rest ih => simp only [treeMapM]; rw [h v (by simp [leaves]), ih fun w hw => h w (by simp [leaves, hw])]
  | nested n sub rest ih1 ih2 =>
    simp only [treeMapM]
    rw [ih1 fun w hw => h w (by simp [leaves, hw]), ih2 fun w hw => h w (by simp [leaves, hw])]

/-- `f` on the fields is `f'` after `g`, at least on lists that begin with a field of `x`. -/
theorem treeMapN_treeMap {f f' : List (NArr α) → Option (NArr α)} {g : NArr α → NArr α} {x : Tree α} {ys : List (Tree α)}
    (hf : ∀ a l, a ∈ leaves x → f (a :: l) = f' ((a :: l).map g)) : treeMapN f x ys = treeMapN f' (treeMap g x) (ys.map (treeMap g)) := by
  unfold treeMapN
  rw [transpose_treeMap]
  cases ht : SoA.transpose x ys with
  | none => rfl
  | some t =>
    simp only [Option.map_some, Option.bind_some, treeMapM_treeMap]
    refine treeMapM_congr fun l hl => ?_
    have h0 := transpose_proj ht (k := 0) (y := x) rfl
    have hlen := transpose_length ht l hl
    cases l with
    | nil => simp at hlen
    | cons a l =>
      refine hf a l ?_
      rw [← h0, leaves_treeMap]
      exact List.mem_map.2 ⟨a :: l, hl, rfl⟩

/-- Records of several instances of batch shape `b` laid out along a new (or lengthened) axis. -/
theorem joined_moved {b b' : List Nat} {σ : List Nat → List Nat} {g : NArr α → NArr α} {f : List (NArr α) → Option (NArr α)} {ax : Nat}
    (hg : Rearranges (fun r => r = []) b b' σ fun a => some (g a)) (hs : c.Scalar) {x : Tree α} {ys : List (Tree α)} (h : ∀ y ∈ x :: ys, Conf b c y)
    (hax : ax < b'.length) (h1 : b'.getD ax 0 = 1) (hf : ∀ a l, a ∈ leaves x → f (a :: l) = NArr.concatenate ((a :: l).map g) (ax : Int)) :
    ∃ z, treeMapN f x ys = some z ∧ Conf (b'.set ax (ys.length + 1)) c z ∧
      ∀ (k : Nat) (y : Tree α) (j : List Nat), (x :: ys)[k]? = some y → InB b' j → item (j.set ax k) z = item (σ j) y := by
  rw [treeMapN_treeMap (f' := fun l => NArr.concatenate l (ax : Int)) (g := g) hf]
  have hc : Confs (List.replicate (ys.length + 1) b') c (treeMap g x :: ys.map (treeMap g)) := by
    refine ⟨by simp, fun k y b'' hk hb => ?_⟩
    have e : treeMap g x :: ys.map (treeMap g) = (x :: ys).map (treeMap g) := rfl
    rw [e, List.getElem?_map] at hk
    obtain ⟨w, hw, rfl⟩ := Option.map_eq_some_iff.1 hk
    have : b'' = b' := (List.mem_replicate.1 (List.mem_of_getElem? hb)).2
    subst this
    exact (scalar_moves hg hs (h w (List.mem_of_getElem? hw))).1
  obtain ⟨z, hz, hzc, hzi⟩ := joined_of (f := fun l => NArr.concatenate l (ax : Int)) (b0 := b') (ax := ax) hc rfl hax
    (fun b'' hb => by rw [(List.mem_replicate.1 hb).2]; exact ⟨rfl, rfl⟩) fun _ _ _ => rfl
  have hsum : ∀ n, ((List.replicate n b').map fun b => b.getD ax 0).sum = n := by
    intro n
    rw [List.map_replicate, h1]; simp
  refine ⟨z, hz, ?_, fun k y j hk hj => ?_⟩
  · rw [hsum] at hzc; exact hzc
  · have hkl : k < ys.length + 1 := by
      have := (List.getElem?_eq_some_iff.1 hk).1
      simpa using this
    have e := hzi k (treeMap g y) b' j (by
      have e : treeMap g x :: ys.map (treeMap g) = (x :: ys).map (treeMap g) := rfl
      rw [e, List.getElem?_map, hk]; rfl) (by rw [List.getElem?_replicate, if_pos hkl]) hj
    rw [List.take_replicate, hsum, Nat.min_eq_left (by omega)] at e
    have hj0 : j.getD ax 0 = 0 := by
      have := inB_getD hj hax
      omega
    rw [hj0, Nat.add_zero] at e
    rw [e]
    exact ((scalar_moves hg hs (h y (List.mem_of_getElem? hk))).2 j hj).2

/-- `column_stack` on one field. -/
def columnOf {β : Type} (a : NArr β) : NArr β := match a.shape with | [] => ⟨[1, 1], a.data⟩ | [n] => ⟨[n, 1], a.data⟩ | _ => a

theorem columnOf_rearranges0 : Rearranges (α := α) (fun r => r = []) [] [1, 1] (fun _ => []) fun a => some (columnOf a) := by
  refine reshape_rearranges (fun a ha => ?_) rfl fun j hj => ?_
  · unfold columnOf; rw [ha]
  · obtain ⟨i, t, rfl, h1, h2⟩ := inB_cons hj
    obtain ⟨i', t, rfl, h1', h2⟩ := inB_cons h2
    have := inB_nil h2; subst this
    have : i = 0 := by omega
    subst this
    have : i' = 0 := by omega
    subst this
    exact ⟨trivial, rfl⟩

theorem columnOf_rearranges1 (n : Nat) : Rearranges (α := α) (fun r => r = []) [n] [n, 1] (fun j => [j.getD 0 0]) fun a => some (columnOf a) := by
  refine reshape_rearranges (fun a ha => ?_) (by simp [size]) fun j hj => ?_
  · unfold columnOf; rw [ha]
  · obtain ⟨i, t, rfl, h1, h2⟩ := inB_cons hj
    obtain ⟨i', t, rfl, h1', h2⟩ := inB_cons h2
    have := inB_nil h2; subst this
    have : i' = 0 := by omega
    subst this
    have hin : InB [n] [i] := ⟨h1, trivial⟩
    exact ⟨hin, by simp [ravel, size]⟩

theorem scalar_leaf_shape (hs : c.Scalar) {b : List Nat} {x : Tree α} (h : Conf b c x) : ∀ a ∈ leaves x, a.shape = b := by
  intro a ha
  obtain ⟨r, ⟨_, h2⟩, h3⟩ := confP_leaves (confP_and h (confP_scalar hs h)) a ha
  rw [h2, h3, List.append_nil]

variable {x : Tree α} {ys : List (Tree α)}

/-- **C52, stacking single instances** of a class with scalar fields only: `hstack` gives a batch `(K,)`, `vstack` `(K, 1)`, `column_stack` `(1, K)`, `dstack` `(1, 1, K)`,
with instance `k` at place `k` of the axis of length `K`. -/
theorem stacks_of_singles (hs : c.Scalar) (h : ∀ y ∈ x :: ys, Conf [] c y) :
    (∃ z, hstack (x :: ys) = some z ∧ Conf [ys.length + 1] c z ∧ ∀ (k : Nat) (y : Tree α), (x :: ys)[k]? = some y → item [k] z = item [] y) ∧
    (∃ z, vstack (x :: ys) = some z ∧ Conf [ys.length + 1, 1] c z ∧ ∀ (k : Nat) (y : Tree α), (x :: ys)[k]? = some y → item [k, 0] z = item [] y) ∧
    (∃ z, columnStack (x :: ys) = some z ∧ Conf [1, ys.length + 1] c z ∧ ∀ (k : Nat) (y : Tree α), (x :: ys)[k]? = some y → item [0, k] z = item [] y) ∧
    ∃ z, dstack (x :: ys) = some z ∧ Conf [1, 1, ys.length + 1] c z ∧ ∀ (k : Nat) (y : Tree α), (x :: ys)[k]? = some y → item [0, 0, k] z = item [] y := by
  have z0 : 0 < 1 := Nat.one_pos
  refine ⟨?_, ?_, ?_, ?_⟩
  · obtain ⟨z, h1, h2, h3⟩ := joined_moved (f := NArr.hstack) (g := atleastD 1) (ax := 0) (grows_rearranges .one) hs h (by simp) rfl fun a l ha => by
      have e := scalar_leaf_shape hs (h x List.mem_cons_self) a ha
      have e1 : NArr.atleast1d a = ⟨[1], a.data⟩ := by unfold NArr.atleast1d; rw [if_pos (by rw [e]; rfl)]
      unfold NArr.hstack
      simp only [List.map_cons, List.getD_cons_zero, e1, List.length_cons, List.length_nil, if_true]
      show concatenate (NArr.mk [1] a.data :: List.map NArr.atleast1d l) 0 = concatenate (NArr.atleast1d a :: List.map NArr.atleast1d l) 0
      rw [e1]
    exact ⟨z, h1, h2, fun k y hk => h3 k y [0] hk ⟨z0, trivial⟩⟩
  · obtain ⟨z, h1, h2, h3⟩ := joined_moved (f := NArr.vstack) (g := atleastD 2) (ax := 0) (grows_rearranges .two0) hs h (by simp) rfl fun a l _ => rfl
    exact ⟨z, h1, h2, fun k y hk => h3 k y [0, 0] hk ⟨z0, z0, trivial⟩⟩
  · obtain ⟨z, h1, h2, h3⟩ := joined_moved (f := NArr.columnStack) (g := columnOf) (ax := 1) columnOf_rearranges0 hs h (by simp) rfl fun a l _ => rfl
    exact ⟨z, h1, h2, fun k y hk => h3 k y [0, 0] hk ⟨z0, z0, trivial⟩⟩
  · obtain ⟨z, h1, h2, h3⟩ := joined_moved (f := NArr.dstack) (g := atleastD 3) (ax := 2) (grows_rearranges .three0) hs h (by simp) rfl fun a l _ => rfl
    exact ⟨z, h1, h2, fun k y hk => h3 k y [0, 0, 0] hk ⟨z0, z0, z0, trivial⟩⟩

/-- **C52, stacking vectors** of records of a class with scalar fields only: `vstack` gives a batch `(K, n)`, `column_stack` `(n, K)`, `dstack` `(1, n, K)`, with the records of
instance `k` at place `k` of the axis of length `K`. -/
theorem stacks_of_vectors (hs : c.Scalar) {n : Nat} (h : ∀ y ∈ x :: ys, Conf [n] c y) :
    (∃ z, vstack (x :: ys) = some z ∧ Conf [ys.length + 1, n] c z ∧
      ∀ (k i : Nat) (y : Tree α), (x :: ys)[k]? = some y → i < n → item [k, i] z = item [i] y) ∧
    (∃ z, columnStack (x :: ys) = some z ∧ Conf [n, ys.length + 1] c z ∧
      ∀ (k i : Nat) (y : Tree α), (x :: ys)[k]? = some y → i < n → item [i, k] z = item [i] y) ∧
    ∃ z, dstack (x :: ys) = some z ∧ Conf [1, n, ys.length + 1] c z ∧
      ∀ (k i : Nat) (y : Tree α), (x :: ys)[k]? = some y → i < n → item [0, i, k] z = item [i] y := by
  have z0 : 0 < 1 := Nat.one_pos
  refine ⟨?_, ?_, ?_⟩
  · obtain ⟨z, h1, h2, h3⟩ := joined_moved (f := NArr.vstack) (g := atleastD 2) (ax := 0) (grows_rearranges (.two1 n)) hs h (by simp) rfl fun a l _ => rfl
    exact ⟨z, h1, h2, fun k i y hk hi => h3 k y [0, i] hk ⟨z0, hi, trivial⟩⟩
  · obtain ⟨z, h1, h2, h3⟩ := joined_moved (f := NArr.columnStack) (g := columnOf) (ax := 1) (columnOf_rearranges1 n) hs h (by simp) rfl fun a l _ => rfl
    exact ⟨z, h1, h2, fun k i y hk hi => h3 k y [i, 0] hk ⟨hi, z0, trivial⟩⟩
  · obtain ⟨z, h1, h2, h3⟩ := joined_moved (f := NArr.dstack) (g := atleastD 3) (ax := 2) (grows_rearranges (.three1 n)) hs h (by simp) rfl fun a l _ => rfl
    exact ⟨z, h1, h2, fun k i y hk hi => h3 k y [0, i, 0] hk ⟨z0, hi, z0, trivial⟩⟩

/-- **C52, `dstack` of matrices** of records of a class with scalar fields only: a batch `(m, n, K)`. -/
theorem dstack_of_matrices (hs : c.Scalar) {m n : Nat} (h : ∀ y ∈ x :: ys, Conf [m, n] c y) :
    ∃ z, dstack (x :: ys) = some z ∧ Conf [m, n, ys.length + 1] c z ∧
      ∀ (k i j : Nat) (y : Tree α), (x :: ys)[k]? = some y → i < m → j < n → item [i, j, k] z = item [i, j] y := by
  obtain ⟨z, h1, h2, h3⟩ := joined_moved (f := NArr.dstack) (g := atleastD 3) (ax := 2) (grows_rearranges (.three2 m n)) hs h (by simp) rfl fun a l _ => rfl
  exact ⟨z, h1, h2, fun k i j y hk hi hj => h3 k y [i, j, 0] hk ⟨hi, hj, Nat.one_pos, trivial⟩⟩

/-- **C52, `hstack` of vectors** of records of a class with scalar fields only: one vector after the other. -/
theorem hstack_of_vectors (hs : c.Scalar) {bs : List Nat} (hc : Confs (bs.map fun n => [n]) c (x :: ys)) :
    ∃ z, hstack (x :: ys) = some z ∧ Conf [bs.sum] c z ∧
      ∀ (k i n : Nat) (y : Tree α), (x :: ys)[k]? = some y → bs[k]? = some n → i < n → item [(bs.take k).sum + i] z = item [i] y := by
  obtain ⟨hl, hcf⟩ := hc
  cases bs with
  | nil => simp at hl
  | cons n0 bs =>
  have hx : Conf [n0] c x := hcf 0 x [n0] rfl rfl
  have e : treeMapN NArr.hstack x ys = treeMapN (fun l => NArr.concatenate l ((0 : Nat) : Int)) (treeMap NArr.atleast1d x) (ys.map (treeMap NArr.atleast1d)) := by
    refine treeMapN_treeMap fun a l ha => ?_
    have e := scalar_leaf_shape hs hx a ha
    have e1 : NArr.atleast1d a = a := atleast1d_id (by rw [e]; simp)
    unfold NArr.hstack
    simp only [List.map_cons, List.getD_cons_zero, e1, e, List.length_cons, List.length_nil, if_true]
    rfl
  have hid : ∀ k y, (x :: ys)[k]? = some y → treeMap NArr.atleast1d y = y := fun k y hk => by
    have hkl : k < ((n0 :: bs).map fun n => [n]).length := by rw [← hl]; exact (List.getElem?_eq_some_iff.1 hk).1
    have hb := List.getElem?_eq_getElem hkl
    have := hcf k y _ hk hb
    refine (atleast_id this).1 ?_
    rw [List.getElem_map]; simp
  rw [show hstack (x :: ys) = treeMapN NArr.hstack x ys from rfl, e, hid 0 x rfl, map_self fun y hy => by
    obtain ⟨k, hk, rfl⟩ := List.getElem_of_mem hy
    exact hid (k + 1) _ (by rw [List.getElem?_cons_succ]; exact List.getElem?_eq_getElem hk)]
  obtain ⟨z, hz, hzc, hzi⟩ := joined_of (f := fun l => NArr.concatenate l ((0 : Nat) : Int)) (b0 := [n0]) (ax := 0) ⟨hl, hcf⟩ rfl (by simp)
    (fun b hb => by obtain ⟨n, _, rfl⟩ := List.mem_map.1 hb; exact ⟨rfl, rfl⟩) fun _ _ _ => rfl
  have hm : ∀ l : List Nat, ((l.map fun n => [n]).map fun b => b.getD 0 0) = l := fun l => by
    rw [List.map_map]; exact map_self fun _ _ => rfl
  refine ⟨z, hz, ?_, fun k i n y hk hn hi => ?_⟩
  · rw [hm] at hzc; exact hzc
  · have := hzi k y [n] [i] hk (by rw [List.getElem?_map, hn]; rfl) ⟨hi, trivial⟩
    rw [← List.map_take, hm] at this
    exact this

/-- Non-trivial cases. -/
example : let r : Nat → Tree Nat := fun v => .leaf "a" ⟨[2], [v, v + 1]⟩ (.nested "n" (.leaf "b" ⟨[2], [v + 10, v + 11]⟩ .nil) .nil)
    Conf [2] demoScalar (r 0) ∧
    vstack [r 0, r 5] = some (.leaf "a" ⟨[2, 2], [0, 1, 5, 6]⟩ (.nested "n" (.leaf "b" ⟨[2, 2], [10, 11, 15, 16]⟩ .nil) .nil)) ∧
    columnStack [r 0, r 5] = some (.leaf "a" ⟨[2, 2], [0, 5, 1, 6]⟩ (.nested "n" (.leaf "b" ⟨[2, 2], [10, 15, 11, 16]⟩ .nil) .nil)) ∧
    hstack [r 0, r 5] = some (.leaf "a" ⟨[4], [0, 1, 5, 6]⟩ (.nested "n" (.leaf "b" ⟨[4], [10, 11, 15, 16]⟩ .nil) .nil)) ∧
    dstack [r 0, r 5] = some (.leaf "a" ⟨[1, 2, 2], [0, 5, 1, 6]⟩ (.nested "n" (.leaf "b" ⟨[1, 2, 2], [10, 15, 11, 16]⟩ .nil) .nil)) ∧
    atleast3d (r 0) = .leaf "a" ⟨[1, 2, 1], [0, 1]⟩ (.nested "n" (.leaf "b" ⟨[1, 2, 1], [10, 11]⟩ .nil) .nil) := by
  refine ⟨⟨rfl, ⟨rfl, rfl⟩, rfl, ⟨rfl, ⟨rfl, rfl⟩, trivial⟩, trivial⟩, ?_⟩
  decide +kernel

end SoA
