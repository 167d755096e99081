import Verif.DescOps

/-!
# C107: what may be given to `at[index].set` and `at[index].set_as_condition`

An instance of the class (or a subclass), an array or scalar, an instance of another class, or anything else.
-/

namespace SetValue

open Io (DType Arr)
open Desc (Val)

/-! ## Model -/

/-- The value given to `set`: an instance (with its class), an array or scalar, or something JAX does not take as an array (`None`, a string, ...). -/
inductive Given where
  | inst (cid : Nat) (y : Val)
  | array (w : Arr)
  | junk

/-- Attribute `n` of an instance. -/
def attr : Val → String → Option Given
  | .nil, _ => none
  | .arr m a r, n => if n = m then some (.array a) else attr r n
  | .obj m cid x r, n => if n = m then some (.inst cid x) else attr r n
  | .other m r, n => if n = m then some .junk else attr r n

/-- The field names of an instance (indexing.py:12-32, 173-183: those of its class). -/
def names : Val → List String
  | .nil => []
  | .arr n _ r => n :: names r
  | .obj n _ _ r => n :: names r
  | .other n r => n :: names r

/-- The value for field `n` of an instance of class `cid` (indexing.py:43-49, 64-66, 103-109, 120-124): the field of the same name if the value is an instance of the class
(`isa d c`: class `d` is `c` or a subclass of it), otherwise the value itself. -/
def pick (isa : Nat → Nat → Bool) (cid : Nat) (v : Given) (n : String) : Option Given :=
  match v with
  | .inst d y => if isa d cid then attr y n else some v
  | _ => some v

/-- Whether the getter finds all fields in the value; otherwise it raises `AttributeError` (indexing.py:47, 107). -/
def getterOk (isa : Nat → Nat → Bool) (cid : Nat) (v : Given) (x : Val) : Bool := (names x).all fun n => (pick isa cid v n).isSome

/-- The loop over the fields (indexing.py:57-72, 117-150).  `st` updates an array (`none`: it raises, and the array is kept); JAX raises `TypeError` for values that are not arrays;
a nested instance is updated by its own updater, whose `AttributeError` is swallowed; a field that is neither has no `at` and is kept.  Classes with `validate=True` are left out (C105). -/
def setFields (isa : Nat → Nat → Bool) (st : List String → Arr → Arr → Option Arr) : List String → (String → Option Given) → Val → Val
  | _, _, .nil => .nil
  | pre, f, .arr n a r => .arr n (match f n with | some (.array w) => (st (pre ++ [n]) a w).getD a | _ => a) (setFields isa st pre f r)
  | pre, f, .obj n cid x r =>
    .obj n cid (match f n with
      | none => x
      | some v => if getterOk isa cid v x then setFields isa st (pre ++ [n]) (pick isa cid v) x else x) (setFields isa st pre f r)
  | pre, f, .other n r => .other n (setFields isa st pre f r)

/-- `x.at[index].set(v)` and `x.at[index].set_as_condition(cond, v)` for `x` of class `cid` (indexing.py:34-74, 76-152). -/
def set (isa : Nat → Nat → Bool) (st : List String → Arr → Arr → Option Arr) (cid : Nat) (x : Val) (v : Given) : Option Val :=
  if getterOk isa cid v x then some (setFields isa st [] (pick isa cid v) x) else none

/-- A stack, or the store and tail of a queue. -/
structure Store where
  size : Nat
  store : Val

/-- `Stack.push` and `Queue.enqueue` of a value whose batch has `n` records (stack.py:19-37, queue.py:19-32); `isa` and `cid` as in `set`, `st` writes the positions from `size` on. -/
def put (isa : Nat → Nat → Bool) (st : Nat → List String → Arr → Arr → Option Arr) (cid : Nat) (S : Store) (n : Nat) (v : Given) : Option Store :=
  (set isa (st S.size) cid S.store v).map fun z => ⟨(S.size + n) % 2 ^ 32, z⟩

/-! ## Specification -/

/-- The array at a path of field names. -/
def arrAt : Val → List String → Option Arr
  | .nil, _ => none
  | .arr m a r, p => if p = [m] then some a else arrAt r p
  | .obj m _ x r, p => match p with
    | [] => none
    | n :: s => if n = m then arrAt x s else arrAt r p
  | .other _ r, p => arrAt r p

/-- Every array is changed, depending on its path; nothing else. -/
def mapArr (g : List String → Arr → Arr) : List String → Val → Val
  | _, .nil => .nil
  | pre, .arr n a r => .arr n (g (pre ++ [n]) a) (mapArr g pre r)
  | pre, .obj n cid x r => .obj n cid (mapArr g (pre ++ [n]) x) (mapArr g pre r)
  | pre, .other n r => .other n (mapArr g pre r)

/-- The value `y` has an array for every array of `x` and, for every nested instance, one of its class or a subclass (`y` may have more fields). -/
def Fits (isa : Nat → Nat → Bool) : Val → Val → Prop
  | .nil, _ => True
  | .arr n _ r, y => (∃ w, attr y n = some (.array w)) ∧ Fits isa r y
  | .obj n cid x r, y => (∃ d y', attr y n = some (.inst d y') ∧ isa d cid = true ∧ Fits isa x y') ∧ Fits isa r y
  | .other n r, y => (attr y n).isSome = true ∧ Fits isa r y

/-- `d` is not the class, nor a subclass of the class, of any nested instance. -/
def Foreign (isa : Nat → Nat → Bool) (d : Nat) : Val → Prop
  | .nil => True
  | .arr _ _ r => Foreign isa d r
  | .obj _ cid x r => isa d cid = false ∧ Foreign isa d x ∧ Foreign isa d r
  | .other _ r => Foreign isa d r

/-- The outermost nested instances that an instance of `d` is an instance of are changed, depending on their path; nothing else. -/
def mapOuter (isa : Nat → Nat → Bool) (d : Nat) (u : List String → Val → Val) : List String → Val → Val
  | _, .nil => .nil
  | pre, .arr n a r => .arr n a (mapOuter isa d u pre r)
  | pre, .obj n cid x r => .obj n cid (if isa d cid then u (pre ++ [n]) x else mapOuter isa d u (pre ++ [n]) x) (mapOuter isa d u pre r)
  | pre, .other n r => .other n (mapOuter isa d u pre r)

/-- The value fits all of them. -/
def FitsOuter (isa : Nat → Nat → Bool) (d : Nat) (y : Val) : Val → Prop
  | .nil => True
  | .arr _ _ r => FitsOuter isa d y r
  | .obj _ cid x r => (isa d cid = true → Fits isa x y) ∧ (isa d cid = false → FitsOuter isa d y x) ∧ FitsOuter isa d y r
  | .other _ r => FitsOuter isa d y r

/-- The field-wise update of the instance at path `q` by the instance `y`. -/
def fieldwise (st : List String → Arr → Arr → Option Arr) (y : Val) (q : List String) (p : List String) (a : Arr) : Arr :=
  match arrAt y (p.drop q.length) with
  | some w => (st p a w).getD a
  | none => a

/-! ## Proofs -/

theorem arrAt_attr_array : ∀ {y : Val} {n : String} {w : Arr}, attr y n = some (.array w) → arrAt y [n] = some w := by
  intro y
  induction y with
  | nil => intro n w h; cases h
  | arr m a r ih =>
    intro n w h
    unfold attr at h
    unfold arrAt
    by_cases hn : n = m
    · rw [if_pos hn] at h; cases h; rw [if_pos (by rw [hn])]
    · rw [if_neg hn] at h
      rw [if_neg (by simpa using hn)]
      exact ih h
  | obj m c x r _ ih =>
    intro n w h
    unfold attr at h
    unfold arrAt
    by_cases hn : n = m
    · rw [if_pos hn] at h; cases h
    · rw [if_neg hn] at h
      simp only [if_neg hn]
      exact ih h
  | other m r ih =>
    intro n w h
    unfold attr at h
    unfold arrAt
    by_cases hn : n = m
    · rw [if_pos hn] at h; cases h
    · rw [if_neg hn] at h; exact ih h

theorem arrAt_attr_inst : ∀ {y : Val} {n : String} {d : Nat} {y' : Val}, attr y n = some (.inst d y') → ∀ s, s ≠ [] → arrAt y (n :: s) = arrAt y' s := by
  intro y
  induction y with
  | nil => intro n d y' h; cases h
  | arr m a r ih =>
    intro n d y' h s hs
    unfold attr at h
    conv => lhs; unfold arrAt
    by_cases hn : n = m
    · rw [if_pos hn] at h; cases h
    · rw [if_neg hn] at h
      rw [if_neg (by intro e; exact hn (List.cons.inj e).1)]
      exact ih h s hs
  | obj m c x r _ ih =>
    intro n d y' h s hs
    unfold attr at h
    conv => lhs; unfold arrAt
    by_cases hn : n = m
    · rw [if_pos hn] at h; cases h; simp only [if_pos hn]
    · rw [if_neg hn] at h
      simp only [if_neg hn]
      exact ih h s hs
  | other m r ih =>
    intro n d y' h s hs
    unfold attr at h
    conv => lhs; unfold arrAt
    by_cases hn : n = m
    · rw [if_pos hn] at h; cases h
    · rw [if_neg hn] at h; exact ih h s hs

theorem fits_attr {isa : Nat → Nat → Bool} : ∀ {x y : Val}, Fits isa x y → ∀ n ∈ names x, (attr y n).isSome = true := by
  intro x
  induction x with
  | nil => intro y _ n hn; cases hn
  | arr m a r ih =>
    intro y h n hn
    rcases List.mem_cons.1 hn with rfl | hn
    · obtain ⟨w, hw⟩ := h.1; rw [hw]; rfl
    · exact ih h.2 n hn
  | obj m c x r _ ih =>
    intro y h n hn
    rcases List.mem_cons.1 hn with rfl | hn
    · obtain ⟨d, y', hw, _⟩ := h.1; rw [hw]; rfl
    · exact ih h.2 n hn
  | other m r ih =>
    intro y h n hn
    rcases List.mem_cons.1 hn with rfl | hn
    · exact h.1
    · exact ih h.2 n hn

theorem getterOk_of_fits {isa : Nat → Nat → Bool} {cid d : Nat} {x y : Val} (h : Fits isa x y) (hd : isa d cid = true) : getterOk isa cid (.inst d y) x = true := by
  unfold getterOk
  rw [List.all_eq_true]
  intro n hn
  unfold pick
  simp only [hd, if_true]
  exact fits_attr h n hn

theorem getterOk_self {isa : Nat → Nat → Bool} {cid : Nat} {v : Given} (x : Val) (h : ∀ n, pick isa cid v n = some v) : getterOk isa cid v x = true := by
  unfold getterOk
  rw [List.all_eq_true]
  intro n _
  rw [h n]
  rfl

/-- The loop on a fitting instance. -/
theorem setFields_fits {isa : Nat → Nat → Bool} {st : List String → Arr → Arr → Option Arr} : ∀ {x y : Val} {q : List String}, Fits isa x y →
    setFields isa st q (attr y) x = mapArr (fieldwise st y q) q x := by
  have key : ∀ (x : Val) (q : List String) (y y0 : Val) (f : String → Option Given) (q0 : List String), Fits isa x y → f = attr y →
      (∀ s, s ≠ [] → arrAt y s = arrAt y0 ((q ++ s).drop q0.length)) → setFields isa st q f x = mapArr (fieldwise st y0 q0) q x := by
    intro x
    induction x with
    | nil => intro q y y0 f q0 _ _ _; rfl
    | arr m a r ih =>
      intro q y y0 f q0 h hf hy
      unfold setFields mapArr
      rw [ih q y y0 f q0 h.2 hf hy]
      congr 1
      obtain ⟨w, hw⟩ := h.1
      rw [hf, hw]
      unfold fieldwise
      rw [← hy [m] (by simp), arrAt_attr_array hw]
    | obj m c x r ihx ihr =>
      intro q y y0 f q0 h hf hy
      unfold setFields mapArr
      rw [ihr q y y0 f q0 h.2 hf hy]
      congr 1
      obtain ⟨d, y', hw, hd, hx⟩ := h.1
      rw [hf, hw]
      simp only
      rw [if_pos (getterOk_of_fits hx hd)]
      refine ihx (q ++ [m]) y' y0 _ q0 hx ?_ ?_
      · funext n
        unfold pick
        simp only [hd, if_true]
      · intro s hs
        rw [← arrAt_attr_inst hw s hs, hy (m :: s) (by simp)]
        simp
    | other m r ih =>
      intro q y y0 f q0 h hf hy
      unfold setFields mapArr
      rw [ih q y y0 f q0 h.2 hf hy]
  intro x y q h
  exact key x q y y _ q h rfl fun s _ => by simp

/-- **C107 (1).**  An instance of the class, or of a subclass: every array at every path is updated with the array at the same path of the value, and nothing else changes. -/
theorem set_instance {isa : Nat → Nat → Bool} {st : List String → Arr → Arr → Option Arr} {cid d : Nat} {x y : Val} (hd : isa d cid = true) (h : Fits isa x y) :
    set isa st cid x (.inst d y) = some (mapArr (fun p a => match arrAt y p with | some w => (st p a w).getD a | none => a) [] x) := by
  unfold set
  rw [if_pos (getterOk_of_fits h hd)]
  have : pick isa cid (.inst d y) = attr y := by
    funext n
    unfold pick
    simp only [hd, if_true]
  rw [this, setFields_fits h]
  rfl

/-- **C107 (2).**  An array or scalar: it is written to every array of the instance, nested ones included, that it fits; the other arrays are kept. -/
theorem set_array (isa : Nat → Nat → Bool) (st : List String → Arr → Arr → Option Arr) (cid : Nat) (x : Val) (w : Arr) :
    set isa st cid x (.array w) = some (mapArr (fun p a => (st p a w).getD a) [] x) := by
  have main : ∀ (x : Val) (q : List String) (f : String → Option Given), (∀ n, f n = some (.array w)) → setFields isa st q f x = mapArr (fun p a => (st p a w).getD a) q x := by
    intro x
    induction x with
    | nil => intro q f _; rfl
    | arr m a r ih =>
      intro q f hf
      unfold setFields mapArr
      rw [ih q f hf, hf m]
    | obj m c x r ihx ihr =>
      intro q f hf
      unfold setFields mapArr
      rw [ihr q f hf, hf m]
      simp only
      rw [if_pos (getterOk_self x fun _ => rfl), ihx (q ++ [m]) (pick isa c (.array w)) fun _ => rfl]
    | other m r ih =>
      intro q f hf
      unfold setFields mapArr
      rw [ih q f hf]
  unfold set
  rw [if_pos (getterOk_self x fun _ => rfl), main x [] (pick isa cid (.array w)) fun _ => rfl]

/-- The loop when every field is given a foreign instance, or anything that is no array. -/
theorem setFields_keeps {isa : Nat → Nat → Bool} {st : List String → Arr → Arr → Option Arr} {v : Given} (hv : ∀ w, v ≠ .array w) : ∀ (x : Val) (q : List String) (f : String → Option Given),
    (∀ n, f n = some v) → (∀ d y, v = .inst d y → Foreign isa d x) → setFields isa st q f x = x := by
  intro x
  induction x with
  | nil => intro q f _ _; rfl
  | arr m a r ih =>
    intro q f hf hx
    unfold setFields
    rw [ih q f hf fun d y e => hx d y e, hf m]
    cases v with
    | array w => exact absurd rfl (hv w)
    | inst _ _ => rfl
    | junk => rfl
  | obj m c x r ihx ihr =>
    intro q f hf hx
    unfold setFields
    rw [ihr q f hf fun d y e => (hx d y e).2.2, hf m]
    have hp : ∀ n, pick isa c v n = some v := by
      intro n
      unfold pick
      cases v with
      | array w => rfl
      | junk => rfl
      | inst d y => simp only [(hx d y rfl).1]; rfl
    simp only
    rw [if_pos (getterOk_self x hp), ihx (q ++ [m]) _ hp fun d y e => (hx d y e).2.1]
  | other m r ih =>
    intro q f hf hx
    unfold setFields
    rw [ih q f hf fun d y e => hx d y e]

/-- **C107 (3).**  An instance of any other class (not a subclass of the class, nor of the class of a nested instance): the call returns the instance unchanged. -/
theorem set_foreign {isa : Nat → Nat → Bool} (st : List String → Arr → Arr → Option Arr) {cid d : Nat} {x : Val} (y : Val) (hd : isa d cid = false) (hx : Foreign isa d x) :
    set isa st cid x (.inst d y) = some x := by
  have hp : ∀ n, pick isa cid (.inst d y) n = some (.inst d y) := by
    intro n
    unfold pick
    simp only [hd]
    rfl
  unfold set
  rw [if_pos (getterOk_self x hp), setFields_keeps (v := .inst d y) (fun w h => by cases h) x [] _ hp fun d' y' e => by cases e; exact hx]

/-- **C107 (4).**  So does anything that JAX does not take as an array. -/
theorem set_junk (isa : Nat → Nat → Bool) (st : List String → Arr → Arr → Option Arr) (cid : Nat) (x : Val) : set isa st cid x .junk = some x := by
  unfold set
  rw [if_pos (getterOk_self x fun _ => rfl), setFields_keeps (v := .junk) (fun w h => by cases h) x [] (pick isa cid .junk) (fun _ => rfl) fun d' y' e => by cases e]

/-- **C107 (5).**  An instance of the class (or a subclass of the class) of nested instances: exactly the outermost nested instances of such a class are updated with it, field by field. -/
theorem set_nested {isa : Nat → Nat → Bool} (st : List String → Arr → Arr → Option Arr) {cid d : Nat} {x y : Val} (hd : isa d cid = false) (hx : FitsOuter isa d y x) :
    set isa st cid x (.inst d y) = some (mapOuter isa d (fun q x' => mapArr (fieldwise st y q) q x') [] x) := by
  have main : ∀ (x : Val) (q : List String) (f : String → Option Given), (∀ n, f n = some (.inst d y)) → FitsOuter isa d y x →
      setFields isa st q f x = mapOuter isa d (fun q x' => mapArr (fieldwise st y q) q x') q x := by
    intro x
    induction x with
    | nil => intro q f _ _; rfl
    | arr m a r ih =>
      intro q f hf hx
      unfold setFields mapOuter
      rw [ih q f hf hx, hf m]
    | obj m c x r ihx ihr =>
      intro q f hf hx
      unfold setFields mapOuter
      rw [ihr q f hf hx.2.2, hf m]
      simp only
      cases hc : isa d c with
      | true =>
        have hfit := hx.1 hc
        have : pick isa c (.inst d y) = attr y := by
          funext n
          unfold pick
          simp only [hc, if_true]
        rw [if_pos (getterOk_of_fits hfit hc), this, setFields_fits hfit]
        rfl
      | false =>
        have hp : ∀ n, pick isa c (.inst d y) n = some (.inst d y) := by
          intro n
          unfold pick
          simp only [hc]
          rfl
        rw [if_pos (getterOk_self x hp), ihx (q ++ [m]) _ hp (hx.2.1 hc)]
        rfl
    | other m r ih =>
      intro q f hf hx
      unfold setFields mapOuter
      rw [ih q f hf hx]
  have hp : ∀ n, pick isa cid (.inst d y) n = some (.inst d y) := by
    intro n
    unfold pick
    simp only [hd]
    rfl
  unfold set
  rw [if_pos (getterOk_self x hp), main x [] _ hp hx]

/-- **C107 (6).**  Pushing or enqueuing an instance of another class counts its records and stores nothing. -/
theorem put_foreign {isa : Nat → Nat → Bool} (st : Nat → List String → Arr → Arr → Option Arr) {cid d : Nat} (S : Store) (n : Nat) (y : Val) (hd : isa d cid = false)
    (hx : Foreign isa d S.store) : put isa st cid S n (.inst d y) = some ⟨(S.size + n) % 2 ^ 32, S.store⟩ := by
  unfold put
  rw [set_foreign _ y hd hx]
  rfl

/-! ## Examples -/

/-- Class 0 has a cost and a key of class 7 (an id); class 8 is a subclass of 7 with one more field; class 9 has nothing to do with them. -/
def isaEx (d c : Nat) : Bool := d == c || (d == 8 && c == 7)

def u8 (s : List Nat) (l : List Int) : Arr := ⟨.uint 8, s, l⟩

def rec0 (s : List Nat) (cost ids : List Int) : Val := .arr "cost" (u8 s cost) (.obj "key" 7 (.arr "id" (u8 s ids) .nil) .nil)

/-- `a.at[0].set(w)`. -/
def at0 : List String → Arr → Arr → Option Arr := Desc.setOp (fun _ => [[]]) (.basic [.int 0])

example : Fits isaEx (rec0 [2] [5, 6] [1, 2]) (rec0 [] [9] [3]) ∧
    set isaEx at0 0 (rec0 [2] [5, 6] [1, 2]) (.inst 0 (rec0 [] [9] [3])) = some (rec0 [2] [9, 6] [3, 2]) :=
  ⟨⟨⟨_, rfl⟩, ⟨_, _, rfl, rfl, ⟨_, rfl⟩, trivial⟩, trivial⟩, by rfl⟩

/-- A scalar goes to every field; a key goes to the nested field only, also one of the subclass; an instance of class 9 with the same fields goes nowhere. -/
example : set isaEx at0 0 (rec0 [2] [5, 6] [1, 2]) (.array (u8 [] [9])) = some (rec0 [2] [9, 6] [9, 2]) ∧
    set isaEx at0 0 (rec0 [2] [5, 6] [1, 2]) (.inst 7 (.arr "id" (u8 [] [9]) .nil)) = some (rec0 [2] [5, 6] [9, 2]) ∧
    set isaEx at0 0 (rec0 [2] [5, 6] [1, 2]) (.inst 8 (.arr "more" (u8 [] [1]) (.arr "id" (u8 [] [9]) .nil))) = some (rec0 [2] [5, 6] [9, 2]) ∧
    FitsOuter isaEx 8 (.arr "more" (u8 [] [1]) (.arr "id" (u8 [] [9]) .nil)) (rec0 [2] [5, 6] [1, 2]) ∧
    set isaEx at0 0 (rec0 [2] [5, 6] [1, 2]) (.inst 9 (rec0 [] [9] [3])) = some (rec0 [2] [5, 6] [1, 2]) ∧ Foreign isaEx 9 (rec0 [2] [5, 6] [1, 2]) :=
  ⟨by rfl, by rfl, by rfl, ⟨fun _ => ⟨⟨_, rfl⟩, trivial⟩, fun h => (by cases h), trivial⟩, by rfl, by rfl, trivial, trivial⟩

/-- A base class value into an instance of the subclass is foreign: nothing happens; an array that fits only one field goes there. -/
example : set isaEx at0 8 (.arr "id" (u8 [2] [1, 2]) (.arr "more" (u8 [2] [3, 4]) .nil)) (.inst 7 (.arr "id" (u8 [] [9]) .nil)) =
      some (.arr "id" (u8 [2] [1, 2]) (.arr "more" (u8 [2] [3, 4]) .nil)) ∧
    set isaEx at0 8 (.arr "id" (u8 [2] [1, 2]) (.arr "more" (u8 [2, 2] [3, 4, 5, 6]) .nil)) (.array (u8 [2] [8, 9])) =
      some (.arr "id" (u8 [2] [1, 2]) (.arr "more" (u8 [2, 2] [8, 9, 5, 6]) .nil)) :=
  ⟨by rfl, by rfl⟩

example : put isaEx (fun k => Desc.setOp (fun _ => [[]]) (.basic [.int k])) 0 ⟨1, rec0 [2] [5, 255] [1, 255]⟩ 1 (.inst 9 (rec0 [] [9] [3])) = some ⟨2, rec0 [2] [5, 255] [1, 255]⟩ := by rfl

end SetValue
