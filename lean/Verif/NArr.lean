import Verif.SortGroup

/-!
# N-dimensional arrays

The part of `jax.numpy` arrays the dataclass operations rely on: a shape and the row-major contents.  `ofFn shape f` is the array
with the entry `f idx` at every index tuple `idx`; every `jnp` function used by the modelled code is given by such an index
function (or, for `reshape`, by keeping the row-major contents).
-/

namespace NArr

open SortGroup

/-- Number of entries of a shape (`np.prod`). -/
def size : List Nat → Nat
  | [] => 1
  | d :: s => d * size s

/-- An index tuple within a shape. -/
def InB : List Nat → List Nat → Prop
  | [], [] => True
  | d :: s, i :: is => i < d ∧ InB s is
  | _, _ => False

instance decInB : (s i : List Nat) → Decidable (InB s i)
  | [], [] => .isTrue trivial
  | [], _ :: _ => .isFalse (fun h => h)
  | _ :: _, [] => .isFalse (fun h => h)
  | d :: s, i :: is => by unfold InB; exact @instDecidableAnd _ _ _ (decInB s is)

/-- Row-major position. -/
def ravel : List Nat → List Nat → Nat
  | _ :: s, i :: is => i * size s + ravel s is
  | _, _ => 0

/-- Index tuple of a row-major position. -/
def unravel : List Nat → Nat → List Nat
  | [], _ => []
  | _ :: s, k => (k / size s) :: unravel s (k % size s)

/-- All index tuples of a shape in row-major order. -/
def indices (s : List Nat) : List (List Nat) := (List.range (size s)).map (unravel s)

end NArr

/-- An array: shape and row-major contents. -/
structure NArr (α : Type) where
  shape : List Nat
  data : List α
  deriving DecidableEq, Repr

namespace NArr

open SortGroup

variable {α : Type}

/-- Well-formed: as many entries as the shape says. -/
def Wf (a : NArr α) : Prop := a.data.length = size a.shape

/-- The array with entry `f idx` at `idx`. -/
def ofFn (s : List Nat) (f : List Nat → α) : NArr α := ⟨s, tab (size s) fun k => f (unravel s k)⟩

/-- The entry at an index tuple. -/
def get [Inhabited α] (a : NArr α) (i : List Nat) : α := a.data.getD (ravel a.shape i) default

/-- Entry `j` along the leading axes: `a[j]` for an index tuple `j`. -/
def sub [Inhabited α] (j : List Nat) (a : NArr α) : NArr α := ofFn (a.shape.drop j.length) fun i => a.get (j ++ i)

/-! ## Lemmas -/

@[simp] theorem size_nil : size [] = 1 := rfl
@[simp] theorem size_cons (d : Nat) (s : List Nat) : size (d :: s) = d * size s := rfl

theorem size_append (s t : List Nat) : size (s ++ t) = size s * size t := by
  induction s with
  | nil => simp
  | cons d s ih => simp [ih, Nat.mul_assoc]

theorem InB.length {s i : List Nat} (h : InB s i) : i.length = s.length := by
  induction s generalizing i with
  | nil =>
    cases i with
    | nil => rfl
    | cons => exact h.elim
  | cons d s ih =>
    cases i with
    | nil => exact h.elim
    | cons a i => simp [ih h.2]

theorem inB_append {s t i j : List Nat} (hl : i.length = s.length) : InB (s ++ t) (i ++ j) ↔ InB s i ∧ InB t j := by
  induction s generalizing i with
  | nil =>
    cases i with
    | nil => simp [InB]
    | cons => simp at hl
  | cons d s ih =>
    cases i with
    | nil => simp at hl
    | cons a i =>
      simp only [List.cons_append, InB]
      rw [ih (by simpa using hl), and_assoc]

theorem InB.append {s t i j : List Nat} (h : InB s i) (h' : InB t j) : InB (s ++ t) (i ++ j) := (inB_append h.length).2 ⟨h, h'⟩

theorem InB.split {s t k : List Nat} (h : InB (s ++ t) k) : InB s (k.take s.length) ∧ InB t (k.drop s.length) := by
  have hl := h.length
  rw [List.length_append] at hl
  rw [← inB_append (by rw [List.length_take]; omega), List.take_append_drop]
  exact h

theorem ravel_lt {s i : List Nat} (h : InB s i) : ravel s i < size s := by
  induction s generalizing i with
  | nil =>
    cases i with
    | nil => decide
    | cons => exact h.elim
  | cons d s ih =>
    cases i with
    | nil => exact h.elim
    | cons a i =>
      have h1 := ih h.2
      have h2 : (a + 1) * size s ≤ d * size s := Nat.mul_le_mul_right _ h.1
      rw [Nat.succ_mul] at h2
      simp only [ravel, size_cons]
      omega

theorem ravel_append {s t i j : List Nat} (h : i.length = s.length) : ravel (s ++ t) (i ++ j) = ravel s i * size t + ravel t j := by
  induction s generalizing i with
  | nil =>
    cases i with
    | nil => simp [ravel]
    | cons => simp at h
  | cons d s ih =>
    cases i with
    | nil => simp at h
    | cons a i =>
      simp only [List.cons_append, ravel]
      rw [ih (by simpa using h), size_append, Nat.add_mul, Nat.mul_assoc, Nat.add_assoc]

theorem unravel_length (s : List Nat) (k : Nat) : (unravel s k).length = s.length := by
  induction s generalizing k with
  | nil => rfl
  | cons d s ih => simp [unravel, ih]

theorem unravel_inB {s : List Nat} {k : Nat} (h : k < size s) : InB s (unravel s k) := by
  induction s generalizing k with
  | nil => trivial
  | cons d s ih =>
    simp only [size_cons] at h
    have hp : 0 < size s := by
      apply Nat.pos_of_ne_zero
      intro h0
      rw [h0] at h
      simp at h
    exact ⟨(Nat.div_lt_iff_lt_mul hp).2 h, ih (Nat.mod_lt _ hp)⟩

theorem ravel_unravel {s : List Nat} {k : Nat} (h : k < size s) : ravel s (unravel s k) = k := by
  induction s generalizing k with
  | nil => simp at h; simp [ravel, unravel, h]
  | cons d s ih =>
    simp only [size_cons] at h
    have hp : 0 < size s := by
      apply Nat.pos_of_ne_zero
      intro h0
      rw [h0] at h
      simp at h
    simp only [unravel, ravel]
    rw [ih (Nat.mod_lt _ hp), Nat.mul_comm]
    exact Nat.div_add_mod _ _

theorem unravel_ravel {s i : List Nat} (h : InB s i) : unravel s (ravel s i) = i := by
  induction s generalizing i with
  | nil =>
    cases i with
    | nil => rfl
    | cons => exact h.elim
  | cons d s ih =>
    cases i with
    | nil => exact h.elim
    | cons a i =>
      have hlt := ravel_lt h.2
      have hp : 0 < size s := by omega
      simp only [ravel, unravel]
      rw [Nat.mul_comm, Nat.mul_add_div hp, Nat.div_eq_of_lt hlt, Nat.add_zero, Nat.mul_add_mod, Nat.mod_eq_of_lt hlt, ih h.2]

theorem ravel_inj {s i j : List Nat} (h : InB s i) (h' : InB s j) (he : ravel s i = ravel s j) : i = j := by
  rw [← unravel_ravel h, he, unravel_ravel h']

theorem mem_indices {s i : List Nat} : i ∈ indices s ↔ InB s i := by
  unfold indices
  rw [List.mem_map]
  constructor
  · rintro ⟨k, hk, rfl⟩
    exact unravel_inB (List.mem_range.1 hk)
  · intro h
    exact ⟨ravel s i, List.mem_range.2 (ravel_lt h), unravel_ravel h⟩

theorem indices_nodup (s : List Nat) : (indices s).Nodup := by
  unfold indices
  refine List.Pairwise.map _ ?_ (List.Pairwise.and_mem.1 List.nodup_range)
  intro a b hab he
  have h1 := List.mem_range.1 hab.1
  have h2 := List.mem_range.1 hab.2.1
  apply hab.2.2
  rw [← ravel_unravel h1, he, ravel_unravel h2]

theorem indices_length (s : List Nat) : (indices s).length = size s := by simp [indices]

@[simp] theorem ofFn_shape (s : List Nat) (f : List Nat → α) : (ofFn s f).shape = s := rfl

@[simp] theorem ofFn_wf (s : List Nat) (f : List Nat → α) : (ofFn s f).Wf := by simp [Wf, ofFn]

theorem get_ofFn [Inhabited α] {s i : List Nat} (f : List Nat → α) (h : InB s i) : (ofFn s f).get i = f i := by
  unfold get ofFn
  simp only
  rw [tab_getD _ _ (ravel_lt h), unravel_ravel h]

theorem ofFn_congr {s : List Nat} {f g : List Nat → α} (h : ∀ i, InB s i → f i = g i) : ofFn s f = ofFn s g := by
  unfold ofFn tab
  congr 1
  apply List.map_congr_left
  intro k hk
  exact h _ (unravel_inB (List.mem_range.1 hk))

/-- An array is determined by its shape and its entries. -/
theorem ext [Inhabited α] {a b : NArr α} (ha : a.Wf) (hb : b.Wf) (hs : a.shape = b.shape)
    (h : ∀ i, InB a.shape i → a.get i = b.get i) : a = b := by
  cases a with
  | mk s d =>
  cases b with
  | mk s' d' =>
  simp only at hs
  subst hs
  congr 1
  simp only [Wf] at ha hb
  apply List.ext_getElem (by omega)
  intro k h1 h2
  have hk : k < size s := by omega
  have := h (unravel s k) (unravel_inB hk)
  simp only [get] at this
  rw [ravel_unravel hk] at this
  simpa [List.getD_eq_getElem?_getD, List.getElem?_eq_getElem h1, List.getElem?_eq_getElem h2] using this

theorem ofFn_get [Inhabited α] {a : NArr α} (ha : a.Wf) : ofFn a.shape a.get = a :=
  ext (ofFn_wf _ _) ha rfl fun _ hi => get_ofFn _ hi

theorem get_data [Inhabited α] {a : NArr α} {k : Nat} (h : k < size a.shape) : a.get (unravel a.shape k) = a.data.getD k default := by
  unfold get
  rw [ravel_unravel h]

@[simp] theorem sub_shape [Inhabited α] (j : List Nat) (a : NArr α) : (sub j a).shape = a.shape.drop j.length := rfl
@[simp] theorem sub_wf [Inhabited α] (j : List Nat) (a : NArr α) : (sub j a).Wf := ofFn_wf _ _

theorem sub_nil [Inhabited α] {a : NArr α} (ha : a.Wf) : sub [] a = a := ofFn_get ha

theorem sub_ofFn [Inhabited α] {s t j : List Nat} (f : List Nat → α) (h : InB s j) : sub j (ofFn (s ++ t) f) = ofFn t fun i => f (j ++ i) := by
  unfold sub
  rw [ofFn_shape, List.drop_append, List.drop_eq_nil_of_le (Nat.le_of_eq h.length.symm), List.nil_append, h.length,
    Nat.sub_self, List.drop_zero]
  exact ofFn_congr fun i hi => get_ofFn _ (h.append hi)

theorem drop_of_inB {b r j : List Nat} (h : InB b j) : (b ++ r).drop j.length = r := by
  rw [List.drop_append, List.drop_eq_nil_of_le (Nat.le_of_eq h.length.symm), List.nil_append, h.length, Nat.sub_self, List.drop_zero]

theorem sub_eq [Inhabited α] {a : NArr α} {b r j : List Nat} (hs : a.shape = b ++ r) (h : InB b j) :
    sub j a = ofFn r fun i => a.get (j ++ i) := by
  unfold sub
  rw [hs, drop_of_inB h]

theorem get_sub [Inhabited α] {a : NArr α} {b r j i : List Nat} (hs : a.shape = b ++ r) (h : InB b j) (hi : InB r i) :
    (sub j a).get i = a.get (j ++ i) := by
  rw [sub_eq hs h, get_ofFn _ hi]

/-- Two arrays with the same leading shape and the same entries along it are equal. -/
theorem ext_sub [Inhabited α] {a a' : NArr α} {b r : List Nat} (ha : a.Wf) (ha' : a'.Wf) (hs : a.shape = b ++ r) (hs' : a'.shape = b ++ r)
    (h : ∀ j, InB b j → sub j a = sub j a') : a = a' := by
  refine ext ha ha' (hs.trans hs'.symm) fun k hk => ?_
  rw [hs] at hk
  obtain ⟨h1, h2⟩ := hk.split
  have : (sub (k.take b.length) a).get (k.drop b.length) = (sub (k.take b.length) a').get (k.drop b.length) := by rw [h _ h1]
  rw [get_sub hs h1 h2, get_sub hs' h1 h2, List.take_append_drop] at this
  exact this

theorem sub_sub [Inhabited α] {a : NArr α} {b c r j k : List Nat} (hs : a.shape = b ++ (c ++ r)) (hj : InB b j) (hk : InB c k) :
    sub k (sub j a) = sub (j ++ k) a := by
  rw [sub_eq hs hj, sub_ofFn _ hk, sub_eq (b := b ++ c) (r := r) (by rw [hs, List.append_assoc]) (hj.append hk)]
  simp only [List.append_assoc]

theorem take_append_of_inB {b j i : List Nat} (h : InB b j) : (j ++ i).take b.length = j := by
  rw [← h.length, List.take_left']
  rfl

theorem drop_append_of_inB {b j i : List Nat} (h : InB b j) : (j ++ i).drop b.length = i := by
  rw [← h.length, List.drop_left']
  rfl

end NArr
