import Verif.SoAIndex

/-!
# C50: `==` and `!=` of dataclass instances

Model of `xtructure/core/xtructure_decorators/ops.py`.  `eq : α → α → Bool` is the comparison of two array entries: plain equality for integers
and booleans, IEEE comparison (`NaN ≠ NaN`, `-0.0 = 0.0`) for floats; `!=` of two entries is its negation, also for `NaN`.  Conversions between
dtypes before the comparison are not modelled.  `none` is an exception.
-/

namespace SoA

open Agg NArr

variable {α : Type} [Inhabited α]

/-- `jnp.broadcast_shapes` of two shapes given in reverse order. -/
def bcastRev : List Nat → List Nat → Option (List Nat)
  | [], t => some t
  | s, [] => some s
  | d :: s, e :: t =>
    if d = e ∨ e = 1 then (bcastRev s t).map fun u => d :: u
    else if d = 1 then (bcastRev s t).map fun u => e :: u
    else none

/-- `jnp.broadcast_shapes(s, t)`; `none`: incompatible shapes, a `TypeError`. -/
def bcast2 (s t : List Nat) : Option (List Nat) := (bcastRev s.reverse t.reverse).map List.reverse

/-- `jnp.all(x == y)` for two arrays (ops.py:46). -/
def allEq (eq : α → α → Bool) (a b : NArr α) : Option Bool :=
  (bcast2 a.shape b.shape).map fun u => (indices u).all fun i => eq (a.get (bcastSrc a.shape i)) (b.get (bcastSrc b.shape i))

/-- `jnp.any(x != y)` for two arrays (ops.py:54). -/
def anyNe (eq : α → α → Bool) (a b : NArr α) : Option Bool :=
  (bcast2 a.shape b.shape).map fun u => (indices u).any fun i => !eq (a.get (bcastSrc a.shape i)) (b.get (bcastSrc b.shape i))

/-- `jax.tree_util.tree_reduce(f, tree)` without initial value: an empty tree raises. -/
def treeReduce (f : Bool → Bool → Bool) (x : Inst Bool) : Option Bool :=
  match leaves x with
  | [] => none
  | v :: vs => some (vs.foldl f v)

/-- `__eq__` for two instances of one class (ops.py:45-47). -/
def instEq (eq : α → α → Bool) (x y : Tree α) : Option Bool :=
  (zip x y).bind fun z => (treeMapM (fun p => allEq eq p.1 p.2) z).bind (treeReduce and)

/-- `__ne__` for two instances of one class (ops.py:53-55). -/
def instNe (eq : α → α → Bool) (x y : Tree α) : Option Bool :=
  (zip x y).bind fun z => (treeMapM (fun p => anyNe eq p.1 p.2) z).bind (treeReduce or)

/-- The outcome of a comparison method. -/
inductive Cmp where
  | notImplemented
  | raises
  | val (b : Bool)
  deriving DecidableEq

def Cmp.ofOption : Option Bool → Cmp
  | none => .raises
  | some b => .val b

/-- The `__eq__` method: an instance and anything else (an instance of some class, or no dataclass instance at all); subclasses are not
modelled (ops.py:29-43). -/
def eqMethod (eq : α → α → Bool) (cls : String) (x : Tree α) (other : Option (String × Tree α)) : Cmp :=
  match other with
  | some (cls', y) => if cls' = cls then .ofOption (instEq eq x y) else .notImplemented
  | none => .notImplemented

/-- The `__ne__` method (ops.py:49-51). -/
def neMethod (eq : α → α → Bool) (cls : String) (x : Tree α) (other : Option (String × Tree α)) : Cmp :=
  match other with
  | some (cls', y) => if cls' = cls then .ofOption (instNe eq x y) else .notImplemented
  | none => .notImplemented

/-! ## Specification -/

/-- `P` holds for every field of `x` with the field of the same position and name of `y`, in nested instances too. -/
def FieldRel {β γ : Type} (P : β → γ → Prop) : Inst β → Inst γ → Prop
  | .nil, .nil => True
  | .leaf n v r, .leaf n' w r' => n = n' ∧ P v w ∧ FieldRel P r r'
  | .nested n s r, .nested n' s' r' => n = n' ∧ FieldRel P s s' ∧ FieldRel P r r'
  | _, _ => False

/-- Two arrays of one shape whose entries compare equal. -/
def EntriesEq (eq : α → α → Bool) (a b : NArr α) : Prop := a.shape = b.shape ∧ ∀ i, InB a.shape i → eq (a.get i) (b.get i) = true

/-! ## Broadcast shapes -/

omit [Inhabited α] in
theorem bcastRev_self (s : List Nat) : bcastRev s s = some s := by
  induction s with
  | nil => rfl
  | cons d s ih => simp [bcastRev, ih]

omit [Inhabited α] in
theorem bcast2_self (s : List Nat) : bcast2 s s = some s := by simp [bcast2, bcastRev_self]

theorem bcastRev_comm (s t : List Nat) : bcastRev s t = bcastRev t s := by
  induction s generalizing t with
  | nil => cases t <;> rfl
  | cons d s ih =>
    cases t with
    | nil => rfl
    | cons e t =>
      simp only [bcastRev, ih t]
      by_cases h : d = e
      · subst h; simp
      · have h' : ¬ e = d := fun hh => h hh.symm
        by_cases h1 : e = 1
        · by_cases h2 : d = 1
          · omega
          · rw [if_pos (Or.inr h1), if_neg (by omega), if_pos h1]
        · by_cases h2 : d = 1
          · rw [if_neg (by omega), if_pos h2, if_pos (Or.inr h2)]
          · rw [if_neg (by omega), if_neg h2, if_neg (by omega), if_neg h1]

theorem bcastRev_prefix (r s t : List Nat) : bcastRev (r ++ s) (r ++ t) = (bcastRev s t).map fun u => r ++ u := by
  induction r with
  | nil => simp
  | cons d r ih => simp [bcastRev, ih, Function.comp_def]

/-- Common trailing axes broadcast with themselves. -/
theorem bcast2_append (s t r : List Nat) : bcast2 (s ++ r) (t ++ r) = (bcast2 s t).map fun u => u ++ r := by
  simp [bcast2, bcastRev_prefix, Function.comp_def]

/-- Both shapes broadcast to the common shape. -/
theorem bcastRev_dims {s t u : List Nat} (h : bcastRev s t = some u) : s.length ≤ u.length ∧ bcastDims s (u.take s.length) = true := by
  induction s generalizing t u with
  | nil => simp [bcastDims]
  | cons d s ih =>
    cases t with
    | nil =>
      simp only [bcastRev, Option.some.injEq] at h
      subst h
      exact ⟨Nat.le_refl _, by rw [List.take_length]; exact bcastDims_refl _⟩
    | cons e t =>
      simp only [bcastRev] at h
      cases hr : bcastRev s t with
      | none => rw [hr] at h; simp at h
      | some v =>
        obtain ⟨h1, h2⟩ := ih hr
        rw [hr] at h
        by_cases hd : d = e ∨ e = 1
        · rw [if_pos hd] at h
          cases h
          exact ⟨by simpa using h1, by simpa [bcastDims] using h2⟩
        · rw [if_neg hd] at h
          by_cases h1' : d = 1
          · rw [if_pos h1'] at h
            cases h
            exact ⟨by simpa using h1, by simpa [bcastDims, h1'] using h2⟩
          · rw [if_neg h1'] at h; cases h

theorem bcastDims_snoc {s t : List Nat} {d e : Nat} (h : s.length = t.length) :
    bcastDims (s ++ [d]) (t ++ [e]) = (bcastDims s t && (d == e || d == 1)) := by
  induction s generalizing t with
  | nil => cases t with
    | nil => simp [bcastDims]
    | cons => simp at h
  | cons a s ih => cases t with
    | nil => simp at h
    | cons b t => simp [bcastDims, ih (by simpa using h), Bool.and_assoc]

theorem bcastDims_reverse {s t : List Nat} (h : s.length = t.length) : bcastDims s.reverse t.reverse = bcastDims s t := by
  induction s generalizing t with
  | nil => cases t with
    | nil => rfl
    | cons => simp at h
  | cons a s ih => cases t with
    | nil => simp at h
    | cons b t =>
      have h' : s.length = t.length := by simpa using h
      rw [List.reverse_cons, List.reverse_cons, bcastDims_snoc (by simpa using h'), ih h', bcastDims, Bool.and_comm]

theorem bcast2_bcast {s t u : List Nat} (h : bcast2 s t = some u) : Bcast s u := by
  unfold bcast2 at h
  cases hr : bcastRev s.reverse t.reverse with
  | none => rw [hr] at h; cases h
  | some v =>
    rw [hr] at h
    cases h
    obtain ⟨h1, h2⟩ := bcastRev_dims hr
    have hl : s.length ≤ v.length := by simpa using h1
    refine ⟨by simpa using hl, ?_⟩
    rw [List.drop_reverse, List.length_reverse, show v.length - (v.length - s.length) = s.length by omega]
    rw [← bcastDims_reverse (by simp; omega), List.reverse_reverse]
    simpa using h2

theorem bcast2_comm (s t : List Nat) : bcast2 s t = bcast2 t s := by unfold bcast2; rw [bcastRev_comm]

/-! ## Reduction over the fields -/

theorem foldl_and (vs : List Bool) (v : Bool) : vs.foldl and v = (v && vs.all id) := by
  induction vs generalizing v with
  | nil => simp
  | cons w vs ih => rw [List.foldl_cons, ih, List.all_cons, id, Bool.and_assoc]

theorem foldl_or (vs : List Bool) (v : Bool) : vs.foldl or v = (v || vs.any id) := by
  induction vs generalizing v with
  | nil => simp
  | cons w vs ih => rw [List.foldl_cons, ih, List.any_cons, id, Bool.or_assoc]

theorem treeReduce_and (x : Inst Bool) : treeReduce and x = if leaves x = [] then none else some ((leaves x).all id) := by
  unfold treeReduce
  cases leaves x with
  | nil => rfl
  | cons v vs => simp [foldl_and]

theorem treeReduce_or (x : Inst Bool) : treeReduce or x = if leaves x = [] then none else some ((leaves x).any id) := by
  unfold treeReduce
  cases leaves x with
  | nil => rfl
  | cons v vs => simp [foldl_or]

theorem anyNe_eq (eq : α → α → Bool) (a b : NArr α) : anyNe eq a b = (allEq eq a b).map not := by
  unfold anyNe allEq
  cases bcast2 a.shape b.shape with
  | none => rfl
  | some u => simp [List.not_all_eq_any_not]

theorem treeMapM_comp_not {β : Type} (f : β → Option Bool) (x : Inst β) : treeMapM (fun p => (f p).map not) x = (treeMapM f x).map (treeMap not) := by
  induction x with
  | nil => rfl
  | leaf n v r ih =>
    simp only [treeMapM, ih]
    cases f v with
    | none => rfl
    | some w => cases treeMapM f r <;> rfl
  | nested n s r ih1 ih2 =>
    simp only [treeMapM, ih1, ih2]
    cases treeMapM f s with
    | none => rfl
    | some w => cases treeMapM f r <;> rfl

/-- **`!=` is the negation of `==`**, whatever the shapes and the comparison of entries; they raise together. -/
theorem ne_not_eq (eq : α → α → Bool) (x y : Tree α) : instNe eq x y = (instEq eq x y).map not := by
  unfold instNe instEq
  cases zip x y with
  | none => rfl
  | some z =>
    simp only [Option.bind_some, anyNe_eq, treeMapM_comp_not]
    cases treeMapM (fun p : NArr α × NArr α => allEq eq p.1 p.2) z with
    | none => rfl
    | some t =>
      simp only [Option.map_some, Option.bind_some, treeReduce_and, treeReduce_or, leaves_treeMap]
      cases leaves t with
      | nil => rfl
      | cons v vs => simp [List.not_all_eq_any_not, Function.comp_def]

/-- The value of `treeMapM` with a Boolean leaf function: `all` over the leaves. -/
theorem leaves_treeMapM {β γ : Type} {f : β → Option γ} {x : Inst β} {z : Inst γ} (h : treeMapM f x = some z) :
    (leaves x).map f = (leaves z).map some := by
  induction x generalizing z with
  | nil => cases h; rfl
  | leaf n v r ih =>
    simp only [treeMapM] at h
    cases hv : f v with
    | none => rw [hv] at h; cases h
    | some w =>
      cases hr : treeMapM f r with
      | none => rw [hv, hr] at h; cases h
      | some r' =>
        rw [hv, hr] at h
        cases h
        simp [leaves, hv, ih hr]
  | nested n s r ih1 ih2 =>
    simp only [treeMapM] at h
    cases hv : treeMapM f s with
    | none => rw [hv] at h; cases h
    | some w =>
      cases hr : treeMapM f r with
      | none => rw [hv, hr] at h; cases h
      | some r' =>
        rw [hv, hr] at h
        cases h
        simp [leaves, ih1 hv, ih2 hr]

/-- `FieldRel` is a statement about the leaves of the zipped tree. -/
theorem fieldRel_iff {β γ : Type} {P : β → γ → Prop} {x : Inst β} {y : Inst γ} {z : Inst (β × γ)} (h : zip x y = some z) :
    FieldRel P x y ↔ ∀ p ∈ leaves z, P p.1 p.2 := by
  induction x generalizing y z with
  | nil =>
    cases y with
    | nil => cases h; simp [FieldRel, leaves]
    | leaf => cases h
    | nested => cases h
  | leaf n v r ih =>
    cases y with
    | nil => cases h
    | nested => cases h
    | leaf n' w r' =>
      simp only [zip] at h
      by_cases hn : n = n'
      · rw [if_pos hn] at h
        cases hr : zip r r' with
        | none => rw [hr] at h; cases h
        | some z' =>
          rw [hr] at h
          cases h
          simp [FieldRel, leaves, hn, ih hr]
      · rw [if_neg hn] at h; cases h
  | nested n s r ih1 ih2 =>
    cases y with
    | nil => cases h
    | leaf => cases h
    | nested n' s' r' =>
      simp only [zip] at h
      by_cases hn : n = n'
      · rw [if_pos hn] at h
        cases hs : zip s s' with
        | none => rw [hs] at h; cases h
        | some zs =>
          cases hr : zip r r' with
          | none => rw [hs, hr] at h; cases h
          | some z' =>
            rw [hs, hr] at h
            cases h
            simp only [FieldRel, leaves, hn, ih1 hs, ih2 hr, true_and, List.mem_append]
            constructor
            · rintro ⟨h1, h2⟩ p (hp | hp)
              · exact h1 p hp
              · exact h2 p hp
            · exact fun h => ⟨fun p hp => h p (Or.inl hp), fun p hp => h p (Or.inr hp)⟩
      · rw [if_neg hn] at h; cases h

/-- Structurally equal trees can be zipped. -/
theorem zip_of_fieldRel {β γ : Type} {P : β → γ → Prop} {x : Inst β} {y : Inst γ} (h : FieldRel P x y) : ∃ z, zip x y = some z := by
  induction x generalizing y with
  | nil => cases y with
    | nil => exact ⟨_, rfl⟩
    | leaf => exact h.elim
    | nested => exact h.elim
  | leaf n v r ih => cases y with
    | nil => exact h.elim
    | nested => exact h.elim
    | leaf n' w r' =>
      obtain ⟨z, hz⟩ := ih h.2.2
      exact ⟨.leaf n (v, w) z, by simp only [zip, if_pos h.1, hz, Option.map_some]⟩
  | nested n s r ih1 ih2 => cases y with
    | nil => exact h.elim
    | leaf => exact h.elim
    | nested n' s' r' =>
      obtain ⟨z1, hz1⟩ := ih1 h.2.1
      obtain ⟨z2, hz2⟩ := ih2 h.2.2
      exact ⟨.nested n z1 z2, by simp only [zip, if_pos h.1, hz1, hz2, Option.map_some, Option.bind_some]⟩

theorem leaves_zip_nil {β γ : Type} {x : Inst β} {y : Inst γ} {z : Inst (β × γ)} (h : zip x y = some z) : leaves z = [] ↔ leaves x = [] := by
  have := (zip_proj h).1
  rw [← this, leaves_treeMap]
  simp

/-- What `==` computes: with compatible field shapes, `True` iff all fields compare equal after broadcasting. -/
theorem eq_broadcast {eq : α → α → Bool} {x y : Tree α} (hx : leaves x ≠ []) (hc : FieldRel (fun a b => (bcast2 a.shape b.shape).isSome = true) x y) :
    ∃ v, instEq eq x y = some v ∧ (v = true ↔ FieldRel (fun a b => ∃ u, bcast2 a.shape b.shape = some u ∧
      ∀ i, InB u i → eq (a.get (bcastSrc a.shape i)) (b.get (bcastSrc b.shape i)) = true) x y) := by
  obtain ⟨z, hz⟩ := zip_of_fieldRel hc
  have hc' := (fieldRel_iff hz).1 hc
  let g : NArr α × NArr α → Bool := fun p => (allEq eq p.1 p.2).getD false
  have hm : treeMapM (fun p : NArr α × NArr α => allEq eq p.1 p.2) z = some (treeMap g z) := by
    refine treeMapM_some fun p hp => ?_
    have := hc' p hp
    simp only [g, allEq]
    cases hb : bcast2 p.1.shape p.2.shape with
    | none => rw [hb] at this; cases this
    | some u => rfl
  refine ⟨((leaves z).map g).all id, ?_, ?_⟩
  · unfold instEq
    rw [hz]
    simp only [Option.bind_some, hm, treeReduce_and, leaves_treeMap]
    rw [if_neg]
    simpa using fun h => hx ((leaves_zip_nil hz).1 h)
  · rw [fieldRel_iff hz]
    simp only [List.all_map, List.all_eq_true, Function.comp, id]
    refine ⟨fun h p hp => ?_, fun h p hp => ?_⟩
    · have h1 := h p hp
      have h2 := hc' p hp
      simp only [g, allEq] at h1
      cases hb : bcast2 p.1.shape p.2.shape with
      | none => rw [hb] at h2; cases h2
      | some u =>
        rw [hb] at h1
        simp only [Option.map_some, Option.getD_some, List.all_eq_true] at h1
        exact ⟨u, rfl, fun i hi => h1 i (mem_indices.2 hi)⟩
    · obtain ⟨u, hu, h1⟩ := h p hp
      simp only [g, allEq, hu, Option.map_some, Option.getD_some, List.all_eq_true]
      exact fun i hi => h1 i (mem_indices.1 hi)

/-- `==` raises when some pair of fields has incompatible shapes, or the class has no fields. -/
theorem eq_raises {eq : α → α → Bool} {x y : Tree α} {z : Inst (NArr α × NArr α)} (hz : zip x y = some z)
    (h : leaves x = [] ∨ ∃ p ∈ leaves z, bcast2 p.1.shape p.2.shape = none) : instEq eq x y = none := by
  unfold instEq
  rw [hz]
  simp only [Option.bind_some]
  cases hm : treeMapM (fun p : NArr α × NArr α => allEq eq p.1 p.2) z with
  | none => rfl
  | some t =>
    have hl := leaves_treeMapM hm
    simp only [Option.bind_some, treeReduce_and]
    rcases h with h | ⟨p, hp, hb⟩
    · rw [← leaves_zip_nil hz] at h
      rw [h] at hl
      have : leaves t = [] := by simpa using hl.symm
      rw [if_pos this]
    · exfalso
      have h1 : allEq eq p.1 p.2 ∈ (leaves t).map some := by rw [← hl]; exact List.mem_map.2 ⟨p, hp, rfl⟩
      obtain ⟨w, _, hw⟩ := List.mem_map.1 h1
      unfold allEq at hw
      rw [hb] at hw
      cases hw

omit [Inhabited α] in
theorem fieldRel_imp {β γ : Type} {P Q : β → γ → Prop} {x : Inst β} {y : Inst γ} (h : FieldRel P x y) (hi : ∀ a b, P a b → Q a b) : FieldRel Q x y := by
  obtain ⟨z, hz⟩ := zip_of_fieldRel h
  exact (fieldRel_iff hz).2 fun p hp => hi _ _ ((fieldRel_iff hz).1 h p hp)

/-- **C50.**  For two instances of one class whose fields have the same shapes (whatever the class, the nesting, the batch shape and the contents):
`x == y` is `True` iff every entry of every field of `x` compares equal to the same entry of the same field of `y`, and `x != y` is the opposite. -/
theorem eq_extensional_partial {eq : α → α → Bool} {x y : Tree α} (hx : leaves x ≠ []) (hs : FieldRel (fun a b => a.shape = b.shape) x y) :
    ∃ v, instEq eq x y = some v ∧ instNe eq x y = some (!v) ∧
      (v = true ↔ FieldRel (fun a b => ∀ i, InB a.shape i → eq (a.get i) (b.get i) = true) x y) := by
  obtain ⟨v, h1, h2⟩ := eq_broadcast (eq := eq) hx (fieldRel_imp hs fun a b (h : a.shape = b.shape) => by rw [h, bcast2_self]; rfl)
  refine ⟨v, h1, by rw [ne_not_eq, h1]; rfl, h2.trans ?_⟩
  obtain ⟨z, hz⟩ := zip_of_fieldRel hs
  rw [fieldRel_iff hz, fieldRel_iff hz]
  have hs' := (fieldRel_iff hz).1 hs
  refine ⟨fun h p hp i hi => ?_, fun h p hp => ⟨p.1.shape, ?_, fun i hi => ?_⟩⟩
  · obtain ⟨u, hu, h3⟩ := h p hp
    have e := hs' p hp
    rw [← e, bcast2_self, Option.some.injEq] at hu
    subst hu
    have := h3 i hi
    rwa [← e, bcastSrc_self hi] at this
  · rw [← hs' p hp, bcast2_self]
  · have := h p hp i hi
    rwa [← hs' p hp, bcastSrc_self hi]

omit [Inhabited α] in
theorem tree_ext {x y : Tree α} {z : Inst (NArr α × NArr α)} (hz : zip x y = some z) (h : ∀ p ∈ leaves z, p.1 = p.2) : x = y := by
  obtain ⟨h1, h2⟩ := zip_proj hz
  rw [← h1, ← h2]
  exact treeMap_congr h

theorem conf_same_shape {b : List Nat} {c : Cls α} {x y : Tree α} (h : Conf b c x) (h' : Conf b c y) : FieldRel (fun a b => a.shape = b.shape) x y := by
  obtain ⟨z, hz, hc⟩ := confP_zip h h'
  refine (fieldRel_iff hz).2 fun p hp => ?_
  obtain ⟨r, h1, h2⟩ := confP_leaves hc p hp
  rw [h1.2, h2.2]

/-- **C50, entries with decidable equality** (integers, booleans): two instances of a class with the same batch shape compare equal iff they are
the same. -/
theorem eq_iff_same_partial [DecidableEq α] {b : List Nat} {c : Cls α} {x y : Tree α} (h : Conf b c x) (h' : Conf b c y) (hx : leaves x ≠ []) :
    instEq (fun u v => decide (u = v)) x y = some (decide (x = y)) ∧ instNe (fun u v => decide (u = v)) x y = some (decide (x ≠ y)) := by
  obtain ⟨v, h1, h2, h3⟩ := eq_extensional_partial (eq := fun u v => decide (u = v)) hx (conf_same_shape h h')
  have : v = decide (x = y) := by
    rw [Bool.eq_iff_iff, h3, decide_eq_true_iff]
    obtain ⟨z, hz, hc⟩ := confP_zip h h'
    rw [fieldRel_iff hz]
    constructor
    · intro hh
      refine tree_ext hz fun p hp => ?_
      obtain ⟨r, c1, c2⟩ := confP_leaves hc p hp
      exact NArr.ext c1.1 c2.1 (by rw [c1.2, c2.2]) fun i hi => of_decide_eq_true (hh p hp i hi)
    · intro e
      subst e
      rw [zip_self] at hz
      cases hz
      intro p hp i _
      rw [leaves_treeMap] at hp
      obtain ⟨a, _, rfl⟩ := List.mem_map.1 hp
      simp
  rw [h1, h2, this]
  simp

/-- **C50 for any two batch shapes.**  Shapes are broadcast: `x == y` is `True` iff at every place of the common batch shape the records that are there
after broadcasting compare equal. -/
theorem eq_records {eq : α → α → Bool} {b b' u : List Nat} {c : Cls α} {x y : Tree α} (h : Conf b c x) (h' : Conf b' c y) (hx : leaves x ≠ [])
    (hu : bcast2 b b' = some u) :
    ∃ v, instEq eq x y = some v ∧ instNe eq x y = some (!v) ∧
      (v = true ↔ ∀ j, InB u j → FieldRel (EntriesEq eq) (item (bcastSrc b j) x) (item (bcastSrc b' j) y)) := by
  obtain ⟨z, hz, hc⟩ := confP_zip h h'
  have hsh : ∀ p ∈ leaves z, ∃ r, p.1.Wf ∧ p.2.Wf ∧ p.1.shape = b ++ r ∧ p.2.shape = b' ++ r ∧ bcast2 p.1.shape p.2.shape = some (u ++ r) := by
    intro p hp
    obtain ⟨r, h1, h2⟩ := confP_leaves hc p hp
    exact ⟨r, h1.1, h2.1, h1.2, h2.2, by rw [h1.2, h2.2, bcast2_append, hu]; rfl⟩
  have hB := bcast2_bcast hu
  have hB' := bcast2_bcast (by rw [bcast2_comm]; exact hu : bcast2 b' b = some u)
  obtain ⟨v, h1, h2⟩ := eq_broadcast (eq := eq) hx ((fieldRel_iff hz).2 fun p hp => by
    obtain ⟨r, _, _, _, _, e⟩ := hsh p hp
    rw [e]; rfl)
  refine ⟨v, h1, by rw [ne_not_eq, h1]; rfl, h2.trans ?_⟩
  rw [fieldRel_iff hz]
  have hit : ∀ j, zip (item (bcastSrc b j) x) (item (bcastSrc b' j) y) = some (treeMap (fun p => (sub (bcastSrc b j) p.1, sub (bcastSrc b' j) p.2)) z) := by
    intro j
    unfold item
    rw [zip_treeMap, hz]
    rfl
  have key : ∀ p ∈ leaves z, ((∃ w, bcast2 p.1.shape p.2.shape = some w ∧
      ∀ i, InB w i → eq (p.1.get (bcastSrc p.1.shape i)) (p.2.get (bcastSrc p.2.shape i)) = true) ↔
      ∀ j, InB u j → EntriesEq eq (sub (bcastSrc b j) p.1) (sub (bcastSrc b' j) p.2)) := by
    intro p hp
    obtain ⟨r, w1, w2, s1, s2, e⟩ := hsh p hp
    have hsub : ∀ j, InB u j → (sub (bcastSrc b j) p.1).shape = r ∧ (sub (bcastSrc b' j) p.2).shape = r := fun j hj =>
      ⟨by rw [sub_shape, s1, drop_of_inB (bcastSrc_inB hB hj)], by rw [sub_shape, s2, drop_of_inB (bcastSrc_inB hB' hj)]⟩
    have hget : ∀ j i, InB u j → InB r i → (sub (bcastSrc b j) p.1).get i = p.1.get (bcastSrc p.1.shape (j ++ i)) ∧
        (sub (bcastSrc b' j) p.2).get i = p.2.get (bcastSrc p.2.shape (j ++ i)) := fun j i hj hi => by
      rw [get_sub s1 (bcastSrc_inB hB hj) hi, get_sub s2 (bcastSrc_inB hB' hj) hi, s1, s2, bcastSrc_append hB.1 hj hi, bcastSrc_append hB'.1 hj hi]
      exact ⟨rfl, rfl⟩
    constructor
    · rintro ⟨w, hw, hh⟩ j hj
      rw [e, Option.some.injEq] at hw
      subst hw
      refine ⟨by rw [(hsub j hj).1, (hsub j hj).2], fun i hi => ?_⟩
      rw [(hsub j hj).1] at hi
      rw [(hget j i hj hi).1, (hget j i hj hi).2]
      exact hh _ (hj.append hi)
    · intro hh
      refine ⟨_, e, fun i hi => ?_⟩
      obtain ⟨hj, hk⟩ := hi.split
      have h3 := (hh _ hj).2 _ (by rw [(hsub _ hj).1]; exact hk)
      rw [(hget _ _ hj hk).1, (hget _ _ hj hk).2, List.take_append_drop] at h3
      exact h3
  constructor
  · intro hh j hj
    rw [fieldRel_iff (hit j), leaves_treeMap]
    intro q hq
    obtain ⟨p, hp, rfl⟩ := List.mem_map.1 hq
    exact (key p hp).1 (hh p hp) j hj
  · intro hh p hp
    refine (key p hp).2 fun j hj => ?_
    have := (fieldRel_iff (hit j)).1 (hh j hj)
    rw [leaves_treeMap] at this
    exact this _ (List.mem_map.2 ⟨p, hp, rfl⟩)

/-- Incompatible batch shapes raise. -/
theorem eq_incompatible {eq : α → α → Bool} {b b' : List Nat} {c : Cls α} {x y : Tree α} (h : Conf b c x) (h' : Conf b' c y)
    (hu : bcast2 b b' = none) : instEq eq x y = none ∧ instNe eq x y = none := by
  obtain ⟨z, hz, hc⟩ := confP_zip h h'
  have : instEq eq x y = none := by
    refine eq_raises hz ?_
    cases hl : leaves z with
    | nil => exact Or.inl ((leaves_zip_nil hz).1 hl)
    | cons p ps =>
      have hp : p ∈ leaves z := by rw [hl]; simp
      obtain ⟨r, h1, h2⟩ := confP_leaves hc p hp
      exact Or.inr ⟨p, by simp, by rw [h1.2, h2.2, bcast2_append, hu]; rfl⟩
  exact ⟨this, by rw [ne_not_eq, this]; rfl⟩

/-- Comparing with an instance of another class, or with anything else, is left to the other operand; comparing within the class is never. -/
theorem eq_other_class (eq : α → α → Bool) (cls : String) (x : Tree α) (other : Option (String × Tree α)) :
    (eqMethod eq cls x other = .notImplemented ↔ ∀ y, other ≠ some (cls, y)) ∧ (neMethod eq cls x other = .notImplemented ↔ ∀ y, other ≠ some (cls, y)) := by
  have hof : ∀ o, Cmp.ofOption o ≠ .notImplemented := fun o => by cases o <;> intro h <;> cases h
  cases other with
  | none => simp [eqMethod, neMethod]
  | some p =>
    obtain ⟨c', y⟩ := p
    by_cases h : c' = cls
    · subst h; simp [eqMethod, neMethod, hof]
    · simp [eqMethod, neMethod, h]

/-- What the two methods return for instances of the same class: opposite values, or both raise. -/
theorem eq_ne_methods (eq : α → α → Bool) (cls : String) (x y : Tree α) :
    (∀ v, eqMethod eq cls x (some (cls, y)) = .val v ↔ neMethod eq cls x (some (cls, y)) = .val (!v)) ∧
    (eqMethod eq cls x (some (cls, y)) = .raises ↔ neMethod eq cls x (some (cls, y)) = .raises) := by
  simp only [eqMethod, neMethod, if_true, ne_not_eq]
  cases instEq eq x y with
  | none => exact ⟨fun v => by simp [Cmp.ofOption], by simp [Cmp.ofOption]⟩
  | some b =>
    refine ⟨fun v => ?_, by simp [Cmp.ofOption]⟩
    cases b <;> cases v <;> simp [Cmp.ofOption]

/-- **C50** for the methods: two instances of one class and one batch shape, whose entries are compared by equality: `==` is `True` and `!=` is `False` iff they are the same. -/
theorem eq_methods_partial [DecidableEq α] {b : List Nat} {c : Cls α} {x y : Tree α} (cls : String) (h : Conf b c x) (h' : Conf b c y) (hx : leaves x ≠ []) :
    (eqMethod (fun u v => decide (u = v)) cls x (some (cls, y)) = .val true ↔ x = y) ∧
    (eqMethod (fun u v => decide (u = v)) cls x (some (cls, y)) = .val false ↔ x ≠ y) ∧
    (neMethod (fun u v => decide (u = v)) cls x (some (cls, y)) = .val true ↔ x ≠ y) ∧
    (neMethod (fun u v => decide (u = v)) cls x (some (cls, y)) = .val false ↔ x = y) := by
  obtain ⟨h1, _⟩ := eq_iff_same_partial h h' hx
  have key : eqMethod (fun u v => decide (u = v)) cls x (some (cls, y)) = .val (decide (x = y)) := by
    simp only [eqMethod, if_true, h1]; rfl
  have key2 := ((eq_ne_methods _ cls x y).1 _).1 key
  rw [key, key2]
  by_cases e : x = y <;> simp [e]

/-! ## Cases where different instances compare equal -/

/-- Different batch sizes: one record equals five copies of itself; an empty batch equals a batch of one. -/
theorem eq_broadcast_false :
    instEq (fun u v => decide (u = v)) (.leaf "f" ⟨[1], [7]⟩ .nil : Tree Nat) (.leaf "f" ⟨[5], [7, 7, 7, 7, 7]⟩ .nil) = some true ∧
    instEq (fun u v => decide (u = v)) (.leaf "f" ⟨[0], []⟩ .nil : Tree Nat) (.leaf "f" ⟨[1], [3]⟩ .nil) = some true ∧
    instEq (fun u v => decide (u = v)) (.leaf "f" ⟨[2], [1, 2]⟩ .nil : Tree Nat) (.leaf "f" ⟨[3], [1, 2, 3]⟩ .nil) = none ∧
    instEq (fun u v => decide (u = v)) (.nil : Tree Nat) .nil = none := by decide +kernel

/-- An entry not equal to itself (`NaN`) makes an instance different from itself. -/
theorem eq_nan_false {eq : α → α → Bool} {x : Tree α} (hx : leaves x ≠ []) {a : NArr α} (ha : a ∈ leaves x) {i : List Nat} (hi : InB a.shape i)
    (hn : eq (a.get i) (a.get i) = false) : instEq eq x x = some false ∧ instNe eq x x = some true := by
  have hz := zip_self x
  have hs : FieldRel (fun a b : NArr α => a.shape = b.shape) x x := (fieldRel_iff hz).2 fun p hp => by
    rw [leaves_treeMap] at hp
    obtain ⟨a, _, rfl⟩ := List.mem_map.1 hp
    rfl
  obtain ⟨v, h1, h2, h3⟩ := eq_extensional_partial (eq := eq) hx hs
  have : v = false := by
    cases v with
    | false => rfl
    | true =>
      exfalso
      have := (fieldRel_iff hz).1 (h3.1 rfl) (a, a) (by rw [leaves_treeMap]; exact List.mem_map.2 ⟨a, ha, rfl⟩) i hi
      rw [hn] at this
      cases this
  rw [h1, h2, this]
  exact ⟨rfl, rfl⟩

/-- Non-trivial cases: nested instances of batch shape `(2,)` that differ in one entry, and equal ones. -/
example : instEq (fun u v => decide (u = v)) (.leaf "f" ⟨[2], [1, 2]⟩ (.nested "a" (.leaf "g" ⟨[2, 2], [1, 2, 3, 4]⟩ .nil) .nil) : Tree Nat)
    (.leaf "f" ⟨[2], [1, 2]⟩ (.nested "a" (.leaf "g" ⟨[2, 2], [1, 2, 3, 5]⟩ .nil) .nil)) = some false := by decide +kernel

example : Conf [2] (.leaf "f" [] (fun s => ofFn s fun _ => 0) (.nested "a" [] (.leaf "g" [2] (fun s => ofFn s fun _ => 0) .nil) .nil) : Cls Nat)
    (.leaf "f" ⟨[2], [1, 2]⟩ (.nested "a" (.leaf "g" ⟨[2, 2], [1, 2, 3, 4]⟩ .nil) .nil)) := by
  simp [Conf, ConfP, NArr.Wf]

end SoA
