import Verif.DescProps
import Verif.SoASet

/-!
# C105: operations on instances of validating classes

`x[index]` and `x.at[index].set(y)`, `set_as_condition` build their result with the constructor of the class, nested instances first, so `validate=True` checks them;
`tree_map` (all `xnp` functions, `jit`, `vmap`) does not.
-/

namespace Desc

open Io (DType Arr)
open NArr (Index Basic Resolved resolve)

/-! ## Model -/

/-- The array without its dtype. -/
def toN (a : Arr) : NArr Int := ⟨a.shape, a.data⟩

/-- `a[index]` keeps the dtype. -/
def ixArr (I : Index) (a : Arr) : Option Arr := (NArr.index (toN a) I).map fun z => ⟨a.dtype, z.shape, z.data⟩

/-- The loop of `__getitem__` over the fields (indexing.py:183-198); a nested instance is indexed by its own `__getitem__`, which ends in its own constructor.
Values that are not what the field declares are left out (they are kept here). -/
def getitemFields (I : Index) : Cls → Val → Except Err Val
  | .nil, _ => .ok .nil
  | .leaf _ _ rest, .arr n a r =>
    match ixArr I a with
    | none => .error .indexError
    | some a' => match getitemFields I rest r with
      | .error e => .error e
      | .ok q => .ok (.arr n a' q)
  | .nested _ _ _ v sub rest, .obj n cid x r =>
    match getitemFields I sub x with
    | .error e => .error e
    | .ok y => match construct v sub y with
      | .error e => .error e
      | .ok y => match getitemFields I rest r with
        | .error e => .error e
        | .ok q => .ok (.obj n cid y q)
  | _, x => .ok x

/-- `x[index]` (indexing.py:183-198). -/
def getitem (I : Index) (v : Bool) (c : Cls) (x : Val) : Except Err Val :=
  match getitemFields I c x with
  | .error e => .error e
  | .ok y => construct v c y

/-- The exceptions `set` swallows (indexing.py:70-72); `u`: whether those of the user's validators are among them. -/
def setCatches (u : Bool) : Err → Bool
  | .typeError | .valueError | .indexError => true
  | .user => u
  | .notImplemented | .recursion => false

/-- `set_as_condition` swallows all (indexing.py:149-151). -/
def condCatches : Err → Bool := fun _ => true

/-- The loop of `set` and of `set_as_condition` over the fields (indexing.py:57-72, 115-151), for an instance `y` of the class: `st` updates an array (`none`: it raises, the array is kept),
a nested instance is updated by its own updater, which ends in its own constructor; if that raises an exception that is caught, the nested instance is kept. -/
def setFields (st : List String → Arr → Arr → Option Arr) (caught : Err → Bool) : List String → Cls → Val → Val → Except Err Val
  | _, .nil, _, _ => .ok .nil
  | pre, .leaf _ _ rest, .arr n a r, .arr _ w r' =>
    match setFields st caught pre rest r r' with
    | .error e => .error e
    | .ok q => .ok (.arr n ((st (pre ++ [n]) a w).getD a) q)
  | pre, .nested _ _ _ v sub rest, .obj n cid x r, .obj _ _ y r' =>
    match (match setFields st caught (pre ++ [n]) sub x y with
      | .error e => Except.error e
      | .ok z => construct v sub z) with
    | .ok z => match setFields st caught pre rest r r' with
      | .error e => .error e
      | .ok q => .ok (.obj n cid z q)
    | .error e =>
      if caught e then match setFields st caught pre rest r r' with
        | .error e => .error e
        | .ok q => .ok (.obj n cid x q)
      else .error e
  | _, _, x, _ => .ok x

/-- `x.at[index].set(y)` and `x.at[index].set_as_condition(cond, y)` (indexing.py:34-74, 76-153). -/
def setWith (st : List String → Arr → Arr → Option Arr) (caught : Err → Bool) (v : Bool) (c : Cls) (x y : Val) : Except Err Val :=
  match setFields st caught [] c x y with
  | .error e => .error e
  | .ok z => construct v c z

/-- `a.at[index].set(w)` for arrays of one dtype; `ord` as in `NArr.atSet`. -/
def setOp (ord : List String → List (List Nat)) (I : Index) (p : List String) (a w : Arr) : Option Arr :=
  (NArr.atSet (ord p) (toN a) I (toN w)).map fun z => ⟨a.dtype, z.shape, z.data⟩

/-- The class declared without `validate=True`, nested classes too. -/
def Cls.plain : Cls → Cls
  | .nil => .nil
  | .leaf n d rest => .leaf n d rest.plain
  | .nested n ish cid _ sub rest => .nested n ish cid false sub.plain rest.plain

/-! ## Specification -/

/-- Every validator looks at one entry at a time. -/
def Cls.Elementwise : Cls → Prop
  | .nil => True
  | .leaf _ d rest => (∀ f, d.validator = some f → ∃ p : Int → Bool, ∀ a, f a = a.data.all p) ∧ rest.Elementwise
  | .nested _ _ _ _ sub rest => sub.Elementwise ∧ rest.Elementwise

/-- Arrays have as many entries as their shape says. -/
def ArrWf (a : Arr) : Prop := a.data.length = Bitpack.size a.shape

def Wfs : Val → Prop
  | .nil => True
  | .arr _ a r => ArrWf a ∧ Wfs r
  | .obj _ _ x r => Wfs x ∧ Wfs r
  | .other _ r => Wfs r

/-- The update of an array keeps its dtype and shape and takes its entries from the two arrays. -/
def Keeps (st : List String → Arr → Arr → Option Arr) : Prop :=
  ∀ p a w z, ArrWf a → ArrWf w → w.dtype = a.dtype → st p a w = some z →
    z.dtype = a.dtype ∧ z.shape = a.shape ∧ ArrWf z ∧ ∀ e ∈ z.data, e ∈ a.data ∨ e ∈ w.data

/-- The class has an array field. -/
def Cls.HasArr : Cls → Prop
  | .nil => False
  | .leaf _ _ _ => True
  | .nested _ _ _ _ _ rest => rest.HasArr

/-! ## Arrays -/

theorem size_eq (s : List Nat) : Bitpack.size s = NArr.size s := by
  induction s with
  | nil => rfl
  | cons d s ih => simp only [Bitpack.size, NArr.size, ih]

theorem mem_ofFn {s : List Nat} {f : List Nat → Int} {e : Int} (h : e ∈ (NArr.ofFn s f).data) : ∃ i, NArr.InB s i ∧ e = f i := by
  obtain ⟨k, hk, rfl⟩ := List.mem_iff_getElem.1 h
  have hk' : k < NArr.size s := by simpa [NArr.ofFn, SortGroup.tab] using hk
  exact ⟨NArr.unravel s k, NArr.unravel_inB hk', by simp [NArr.ofFn, SortGroup.tab]⟩

theorem get_mem {a : NArr Int} (ha : a.Wf) {i : List Nat} (hi : NArr.InB a.shape i) : a.get i ∈ a.data := by
  have := NArr.ravel_lt hi
  unfold NArr.get
  rw [List.getD_eq_getElem?_getD, List.getElem?_eq_getElem (by rw [ha]; exact this)]
  exact List.getElem_mem _

theorem clamp_inB : ∀ {b : List Nat} {t : List Int}, t.length ≤ b.length → (∀ d ∈ b, 0 < d) → NArr.InB (b.take t.length) (NArr.clampIdx b t)
  | b, [], _, _ => by cases b <;> simp [NArr.clampIdx, NArr.InB]
  | [], _ :: _, h, _ => by simp at h
  | d :: b, i :: t, h, hb => by
    have hd := hb d (by simp)
    refine ⟨?_, clamp_inB (by simpa using h) fun d hd => hb d (by simp [hd])⟩
    omega

/-- `a[index]`, for an index of the leading axes. -/
theorem ix_spec {I : Index} {a : Arr} {b r : List Nat} {R : Resolved} (ha : ArrWf a) (hs : a.shape = b ++ r) (hI : resolve I b = some R) (hb : ∀ d ∈ b, 0 < d) :
    ∃ z, ixArr I a = some z ∧ z.dtype = a.dtype ∧ z.shape = (R.out ++ b.drop R.m) ++ r ∧ ArrWf z ∧ ∀ e ∈ z.data, e ∈ a.data := by
  have hw : (toN a).Wf := by unfold NArr.Wf toN; rw [← size_eq]; exact ha
  obtain ⟨h1, h2, h3⟩ := NArr.resolve_append hI r
  have hsh : (toN a).shape = b ++ r := hs
  unfold ixArr NArr.index
  rw [hsh, h1]
  refine ⟨_, rfl, rfl, ?_, ?_, ?_⟩
  · simp only [NArr.ofFn]
    rw [NArr.drop_append_le h2, List.append_assoc]
  · unfold ArrWf
    rw [size_eq]
    simp only
    exact NArr.ofFn_wf _ _
  · intro e he
    simp only at he
    obtain ⟨i, hi, rfl⟩ := mem_ofFn he
    rw [NArr.drop_append_le h2] at hi
    obtain ⟨hi1, hi2⟩ := hi.split
    refine get_mem (a := toN a) hw ?_
    have hl := h3 _ hi1
    have hc := clamp_inB (b := b) (t := R.src (i.take R.out.length)) (by omega) hb
    rw [hl] at hc
    rw [hsh, NArr.clampIdx_append (by omega)]
    have : b ++ r = b.take R.m ++ (b.drop R.m ++ r) := by rw [← List.append_assoc, List.take_append_drop]
    rw [this]
    exact hc.append hi2

theorem setRow_mem {a w : NArr Int} {T : List Int} {k b u : List Nat} (ha : a.Wf) (hw : w.Wf) (hs : a.shape = b ++ u) (hws : w.shape = k' ++ u)
    (hk : NArr.InB k' k) (hT : T.length = b.length) : ∀ e ∈ (NArr.setRow a T k w).data, e ∈ a.data ∨ e ∈ w.data := by
  intro e he
  unfold NArr.setRow at he
  split at he
  · obtain ⟨i, hi, rfl⟩ := mem_ofFn he
    split
    · right
      refine get_mem hw ?_
      rw [hws]
      rw [hs] at hi
      have := hi.split.2
      rw [← hT] at this
      exact hk.append this
    · exact Or.inl (get_mem ha hi)
  · exact Or.inl he

/-- `a.at[index].set(w)` keeps dtype and shape and takes its entries from `a` and `w`. -/
theorem set_keeps (ord : List String → List (List Nat)) (I : Index)
    (ho : ∀ p s R, resolve I s = some R → ∀ k ∈ ord p, NArr.InB R.out k) : Keeps (setOp ord I) := by
  intro p a w z ha hw _ hz
  have haw : (toN a).Wf := by unfold NArr.Wf toN; rw [← size_eq]; exact ha
  have hww : (toN w).Wf := by unfold NArr.Wf toN; rw [← size_eq]; exact hw
  unfold setOp NArr.atSet at hz
  cases hR : resolve I (toN a).shape with
  | none => rw [hR] at hz; cases hz
  | some R =>
    rw [hR] at hz
    simp only [Option.bind_some] at hz
    obtain ⟨h1, h2, h3⟩ := NArr.resolve_append hR []
    generalize hb : NArr.broadcastTo (toN w) (R.out ++ (toN a).shape.drop R.m) = w' at hz
    cases w' with
    | none => cases hz
    | some w' =>
      simp only [Option.map_some] at hz
      have hz := Option.some.inj hz
      have hcond : (toN w).shape.length ≤ (R.out ++ (toN a).shape.drop R.m).length ∧
          NArr.bcastDims (toN w).shape ((R.out ++ (toN a).shape.drop R.m).drop ((R.out ++ (toN a).shape.drop R.m).length - (toN w).shape.length)) = true := by
        apply Classical.byContradiction
        intro hn
        unfold NArr.broadcastTo at hb
        rw [if_neg hn] at hb
        cases hb
      unfold NArr.broadcastTo at hb
      rw [if_pos hcond] at hb
      have hb := Option.some.inj hb
      have hw's : w'.shape = R.out ++ (toN a).shape.drop R.m := by rw [← hb]; rfl
      have hw'w : w'.Wf := by rw [← hb]; exact NArr.ofFn_wf _ _
      have hw'm : ∀ e ∈ w'.data, e ∈ w.data := by
        intro e he
        rw [← hb] at he
        obtain ⟨i, hi, rfl⟩ := mem_ofFn he
        exact get_mem hww (NArr.bcastSrc_inB hcond hi)
      have main : ∀ (l : List (List Nat)) (acc : NArr Int), (∀ k ∈ l, NArr.InB R.out k) → acc.Wf → acc.shape = (toN a).shape →
          (∀ e ∈ acc.data, e ∈ a.data ∨ e ∈ w.data) →
          (l.foldl (fun acc k => NArr.setRow acc (R.src k) k w') acc).Wf ∧
          (l.foldl (fun acc k => NArr.setRow acc (R.src k) k w') acc).shape = (toN a).shape ∧
          ∀ e ∈ (l.foldl (fun acc k => NArr.setRow acc (R.src k) k w') acc).data, e ∈ a.data ∨ e ∈ w.data := by
        intro l
        induction l with
        | nil => intro acc _ h1 h2 h3; exact ⟨h1, h2, h3⟩
        | cons k l ih =>
          intro acc hk hwf hsh hmem
          refine ih _ (fun k' hk' => hk k' (by simp [hk'])) (NArr.setRow_wf hwf _ _ _) (by rw [NArr.setRow_shape]; exact hsh) ?_
          intro e he
          have hk0 := hk k (by simp)
          rcases setRow_mem (b := (toN a).shape.take R.m) (u := (toN a).shape.drop R.m) (k' := R.out) hwf hw'w
            (by rw [hsh, List.take_append_drop]) hw's hk0 (by rw [h3 k hk0, List.length_take]; omega) e he with h | h
          · exact hmem e h
          · exact Or.inr (hw'm e h)
      obtain ⟨m1, m2, m3⟩ := main (ord p) (toN a) (ho p _ R hR) haw rfl fun e he => Or.inl he
      rw [← hz]
      refine ⟨rfl, m2, ?_, m3⟩
      unfold ArrWf
      rw [size_eq]
      exact m1

/-! ## Validation of the results -/

theorem construct_ok {v : Bool} {c : Cls} {x y : Val} (h : construct v c x = .ok y) : y = x ∧ (v = true → FieldsFit c x) := by
  cases v with
  | false => exact ⟨(Except.ok.inj h).symm, fun h => by cases h⟩
  | true =>
    by_cases hf : FieldsFit c x
    · rw [(validated_constructor c x).1 hf] at h
      exact ⟨(Except.ok.inj h).symm, fun _ => hf⟩
    · obtain ⟨e, he⟩ := (validated_constructor c x).2 hf
      rw [he] at h
      cases h

theorem fields_of_deep : ∀ {c : Cls} {x : Val}, DeepFit c x → FieldsFit c x
  | .nil, _, _ => trivial
  | .leaf _ _ rest, .arr _ _ _, h => ⟨h.1, fields_of_deep (c := rest) h.2⟩
  | .nested _ _ _ _ _ rest, .obj _ _ _ _, h => ⟨h.1, fields_of_deep (c := rest) h.2.2⟩
  | .leaf _ _ _, .nil, h => h.elim
  | .leaf _ _ _, .obj _ _ _ _, h => h.elim
  | .leaf _ _ _, .other _ _, h => h.elim
  | .nested _ _ _ _ _ _, .nil, h => h.elim
  | .nested _ _ _ _ _ _, .arr _ _ _, h => h.elim
  | .nested _ _ _ _ _ _, .other _ _, h => h.elim

theorem construct_deep {v : Bool} {c : Cls} {x : Val} (h : DeepFit c x) : construct v c x = .ok x := by
  cases v
  · rfl
  · exact (validated_constructor c x).1 (fields_of_deep h)

theorem fits_of {d : FD} {a z : Arr} {w : Option Arr} (he : ∀ f, d.validator = some f → ∃ p : Int → Bool, ∀ a, f a = a.data.all p) (ha : Fits d a)
    (hw : ∀ w', w = some w' → Fits d w') (h1 : z.dtype = a.dtype) (h2 : ∃ b, z.shape = b ++ d.ish)
    (h3 : ∀ e ∈ z.data, e ∈ a.data ∨ ∃ w', w = some w' ∧ e ∈ w'.data) : Fits d z := by
  refine ⟨by rw [h1]; exact ha.1, h2, fun f hf => ?_⟩
  obtain ⟨p, hp⟩ := he f hf
  rw [hp, List.all_eq_true]
  intro e hm
  rcases h3 e hm with h | ⟨w', hw', h⟩
  · have := ha.2.2 f hf
    rw [hp, List.all_eq_true] at this
    exact this e h
  · have := (hw w' hw').2.2 f hf
    rw [hp, List.all_eq_true] at this
    exact this e h

/-- **C105 (1).**  `x[index]` never returns what the class declared without validation would not return, and a validating class never returns an instance that does not fit. -/
theorem getitem_sound : ∀ {v : Bool} {c : Cls} {x z : Val} {I : Index}, getitem I v c x = .ok z →
    getitem I false c.plain x = .ok z ∧ (v = true → FieldsFit c z) := by
  have hplain : ∀ (I : Index) (c : Cls) (x z : Val), getitemFields I c x = .ok z → getitemFields I c.plain x = .ok z := by
    intro I c
    induction c with
    | nil => intro x z h; exact h
    | leaf n d rest ih =>
      intro x z h
      cases x with
      | arr m a r =>
        unfold getitemFields at h
        simp only [Cls.plain]
        unfold getitemFields
        cases ha : ixArr I a with
        | none => rw [ha] at h; cases h
        | some a' =>
          rw [ha] at h
          simp only at h ⊢
          cases hr : getitemFields I rest r with
          | error e => rw [hr] at h; cases h
          | ok q => rw [hr] at h; rw [ih r q hr]; exact h
      | nil => exact h
      | obj _ _ _ _ => exact h
      | other _ _ => exact h
    | nested n ish cid v sub rest ihs ihr =>
      intro x z h
      cases x with
      | obj m cid' x r =>
        unfold getitemFields at h
        simp only [Cls.plain]
        unfold getitemFields
        cases hs : getitemFields I sub x with
        | error e => rw [hs] at h; cases h
        | ok y =>
          rw [hs] at h
          simp only at h
          cases hc : construct v sub y with
          | error e => rw [hc] at h; cases h
          | ok y' =>
            rw [hc] at h
            obtain ⟨rfl, _⟩ := construct_ok hc
            rw [ihs x y' hs]
            simp only [construct] at h ⊢
            cases hr : getitemFields I rest r with
            | error e => rw [hr] at h; cases h
            | ok q => rw [hr] at h; rw [ihr r q hr]; exact h
      | nil => exact h
      | arr _ _ _ => exact h
      | other _ _ => exact h
  intro v c x z I h
  unfold getitem at h ⊢
  cases hf : getitemFields I c x with
  | error e => rw [hf] at h; cases h
  | ok y =>
    rw [hf] at h
    obtain ⟨rfl, h2⟩ := construct_ok h
    rw [hplain I c x z hf]
    exact ⟨rfl, h2⟩

/-- **C105 (2).**  With validators that look at one entry at a time, an index of the batch axes of a valid batch never fails, and gives a valid batch. -/
theorem getitem_valid {I : Index} {b : List Nat} {R : Resolved} (hI : resolve I b = some R) (hb : ∀ d ∈ b, 0 < d) (v : Bool) {c : Cls} {x : Val} (he : c.Elementwise)
    (hs : Shaped b c x) (hx : DeepFit c x) : ∃ z, getitem I v c x = .ok z ∧ Shaped (R.out ++ b.drop R.m) c z ∧ DeepFit c z := by
  have main : ∀ (c : Cls) (e : List Nat) (x : Val), c.Elementwise → Shaped (b ++ e) c x → DeepFit c x →
      ∃ z, getitemFields I c x = .ok z ∧ Shaped (R.out ++ b.drop R.m ++ e) c z ∧ DeepFit c z := by
    intro c
    induction c with
    | nil => intro e x _ hs _; cases x <;> first | exact ⟨.nil, rfl, trivial, trivial⟩ | exact hs.elim
    | leaf n d rest ih =>
      intro e x hel hs hx
      cases x with
      | arr m a r =>
        obtain ⟨s1, s2, s3, s4, s5⟩ := hs
        obtain ⟨z, z1, z2, z3, z4, z5⟩ := ix_spec (b := b) (r := e ++ d.ish) s4 (by rw [s3, List.append_assoc]) hI hb
        obtain ⟨q, q1, q2, q3⟩ := ih e r hel.2 s5 hx.2
        refine ⟨.arr m z q, ?_, ⟨s1, z2.trans s2, by rw [z3]; simp [List.append_assoc], z4, q2⟩, ?_, q3⟩
        · unfold getitemFields
          rw [z1]
          simp only
          rw [q1]
        · exact fits_of (w := none) hel.1 hx.1 (fun _ h => by cases h) z2 ⟨R.out ++ b.drop R.m ++ e, by rw [z3]; simp [List.append_assoc]⟩ fun e he => Or.inl (z5 e he)
      | nil => exact hs.elim
      | obj _ _ _ _ => exact hs.elim
      | other _ _ => exact hs.elim
    | nested n ish cid v sub rest ihs ihr =>
      intro e x hel hs hx
      cases x with
      | obj m cid' x r =>
        obtain ⟨s1, s2, s3, s4⟩ := hs
        obtain ⟨y, y1, y2, y3⟩ := ihs (e ++ ish) x hel.1 (by rw [← List.append_assoc]; exact s3) hx.2.1
        obtain ⟨q, q1, q2, q3⟩ := ihr e r hel.2 s4 hx.2.2
        refine ⟨.obj m cid' y q, ?_, ⟨s1, s2, by rw [List.append_assoc]; exact y2, q2⟩, s2, y3, q3⟩
        unfold getitemFields
        rw [y1]
        simp only
        rw [construct_deep y3]
        simp only
        rw [q1]
      | nil => exact hs.elim
      | arr _ _ _ => exact hs.elim
      | other _ _ => exact hs.elim
  obtain ⟨z, z1, z2, z3⟩ := main c [] x he (by rw [List.append_nil]; exact hs) hx
  refine ⟨z, ?_, by rw [List.append_nil] at z2; exact z2, z3⟩
  unfold getitem
  rw [z1]
  exact construct_deep z3

theorem resolve_ints : ∀ (l : List Int) (s : List Nat), match NArr.resolveBasic (l.map Basic.int) s with
    | none => s.length < l.length
    | some R => R.out = [] ∧ R.m = l.length ∧ l.length ≤ s.length
  | [], s => by simp [NArr.resolveBasic]
  | i :: l, [] => by simp [NArr.resolveBasic]
  | i :: l, d :: s => by
    have := resolve_ints l s
    simp only [List.map_cons, NArr.resolveBasic]
    cases h : NArr.resolveBasic (l.map Basic.int) s with
    | none => rw [h] at this; simpa using this
    | some R =>
      rw [h] at this
      obtain ⟨h1, h2, h3⟩ := this
      exact ⟨h1, by simp [h2], by simpa using h3⟩

/-- **C105 (3).**  Too many integers (one, for a single record) never reach into the fields of a record of a validating class: the call raises. -/
theorem getitem_too_deep {b : List Nat} {c : Cls} {x : Val} (hs : Shaped b c x) (ha : c.HasArr) (l : List Int) (hl : b.length < l.length) :
    ∃ e, getitem (.basic (l.map Basic.int)) true c x = .error e := by
  have main : ∀ (c : Cls) (x z : Val), Shaped b c x → c.HasArr → getitemFields (.basic (l.map Basic.int)) c x = .ok z → ¬ FieldsFit c z := by
    intro c
    induction c with
    | nil => intro x z _ ha; exact ha.elim
    | leaf n d rest ih =>
      intro x z hs _ hz hf
      cases x with
      | arr m a r =>
        obtain ⟨s1, s2, s3, s4, s5⟩ := hs
        unfold getitemFields ixArr NArr.index at hz
        have hr := resolve_ints l a.shape
        have e1 : resolve (.basic (l.map Basic.int)) (toN a).shape = NArr.resolveBasic (l.map Basic.int) a.shape := rfl
        rw [e1] at hz
        cases hR : NArr.resolveBasic (l.map Basic.int) a.shape with
        | none => rw [hR] at hz; cases hz
        | some R =>
          rw [hR] at hz hr
          obtain ⟨h1, h2, h3⟩ := hr
          simp only [Option.map_some] at hz
          cases hq : getitemFields (.basic (l.map Basic.int)) rest r with
          | error e => rw [hq] at hz; cases hz
          | ok q =>
            rw [hq] at hz
            have hz := Except.ok.inj hz
            subst hz
            obtain ⟨b', hb'⟩ := hf.1.2.1
            simp only [NArr.ofFn] at hb'
            have := congrArg List.length hb'
            rw [h1, h2] at this
            simp only [toN, s3, List.nil_append, List.length_drop, List.length_append] at this
            rw [s3, List.length_append] at h3
            omega
      | nil => exact hs.elim
      | obj _ _ _ _ => exact hs.elim
      | other _ _ => exact hs.elim
    | nested n ish cid v sub rest _ ihr =>
      intro x z hs ha hz hf
      cases x with
      | obj m cid' x r =>
        obtain ⟨s1, s2, s3, s4⟩ := hs
        unfold getitemFields at hz
        cases hy : getitemFields (.basic (l.map Basic.int)) sub x with
        | error e => rw [hy] at hz; cases hz
        | ok y =>
          rw [hy] at hz
          simp only at hz
          cases hc : construct v sub y with
          | error e => rw [hc] at hz; cases hz
          | ok y' =>
            rw [hc] at hz
            simp only at hz
            cases hq : getitemFields (.basic (l.map Basic.int)) rest r with
            | error e => rw [hq] at hz; cases hz
            | ok q =>
              rw [hq] at hz
              have hz := Except.ok.inj hz
              subst hz
              exact ihr r q s4 ha hq hf.2
      | nil => exact hs.elim
      | arr _ _ _ => exact hs.elim
      | other _ _ => exact hs.elim
  cases h : getitem (.basic (l.map Basic.int)) true c x with
  | error e => exact ⟨e, rfl⟩
  | ok z =>
    exfalso
    unfold getitem at h
    cases hf : getitemFields (.basic (l.map Basic.int)) c x with
    | error e => rw [hf] at h; cases h
    | ok y =>
      rw [hf] at h
      exact main c x y hs ha hf ((construct_ok h).2 rfl)

/-! ## Updates -/

/-- **C105 (4).**  With validators that look at one entry at a time, updating a valid instance by a valid instance never raises, does what it does without validation, and gives a
valid instance. -/
theorem set_valid {st : List String → Arr → Arr → Option Arr} (hst : Keeps st) (caught caught' : Err → Bool) (v : Bool) {c : Cls} {x y : Val} (he : c.Elementwise)
    (hx : DeepFit c x) (hy : DeepFit c y) (hwx : Wfs x) (hwy : Wfs y) :
    ∃ z, setWith st caught v c x y = .ok z ∧ setWith st caught' false c.plain x y = .ok z ∧ DeepFit c z ∧ Wfs z := by
  have main : ∀ (c : Cls) (pre : List String) (x y : Val), c.Elementwise → DeepFit c x → DeepFit c y → Wfs x → Wfs y →
      ∃ z, setFields st caught pre c x y = .ok z ∧ setFields st caught' pre c.plain x y = .ok z ∧ DeepFit c z ∧ Wfs z := by
    intro c
    induction c with
    | nil => intro pre x y _ _ _ _ _; exact ⟨.nil, rfl, rfl, trivial, trivial⟩
    | leaf n d rest ih =>
      intro pre x y hel hx hy hwx hwy
      cases x with
      | arr m a r =>
        cases y with
        | arr m' w r' =>
          obtain ⟨q, q1, q2, q3, q4⟩ := ih pre r r' hel.2 hx.2 hy.2 hwx.2 hwy.2
          refine ⟨.arr m ((st (pre ++ [m]) a w).getD a) q, ?_, ?_, ⟨?_, q3⟩, ?_, q4⟩
          · unfold setFields
            rw [q1]
          · simp only [Cls.plain]
            unfold setFields
            rw [q2]
          · cases hz : st (pre ++ [m]) a w with
            | none => exact hx.1
            | some z =>
              obtain ⟨z1, z2, z3, z4⟩ := hst _ _ _ _ hwx.1 hwy.1 (by rw [hy.1.1, hx.1.1]) hz
              refine fits_of (w := some w) hel.1 hx.1 (fun w' h => Option.some.inj h ▸ hy.1) z1 ?_ fun e hm => ?_
              · rw [show (some z).getD a = z from rfl, z2]; exact hx.1.2.1
              · rcases z4 e hm with h | h
                · exact Or.inl h
                · exact Or.inr ⟨w, rfl, h⟩
          · cases hz : st (pre ++ [m]) a w with
            | none => exact hwx.1
            | some z => exact (hst _ _ _ _ hwx.1 hwy.1 (by rw [hy.1.1, hx.1.1]) hz).2.2.1
        | nil => exact hy.elim
        | obj _ _ _ _ => exact hy.elim
        | other _ _ => exact hy.elim
      | nil => exact hx.elim
      | obj _ _ _ _ => exact hx.elim
      | other _ _ => exact hx.elim
    | nested n ish cid v sub rest ihs ihr =>
      intro pre x y hel hx hy hwx hwy
      cases x with
      | obj m cid' x r =>
        cases y with
        | obj m' cid'' y r' =>
          obtain ⟨u, u1, u2, u3, u4⟩ := ihs (pre ++ [m]) x y hel.1 hx.2.1 hy.2.1 hwx.1 hwy.1
          obtain ⟨q, q1, q2, q3, q4⟩ := ihr pre r r' hel.2 hx.2.2 hy.2.2 hwx.2 hwy.2
          refine ⟨.obj m cid' u q, ?_, ?_, ⟨hx.1, u3, q3⟩, u4, q4⟩
          · unfold setFields
            rw [u1]
            simp only
            rw [construct_deep u3]
            simp only
            rw [q1]
          · simp only [Cls.plain]
            unfold setFields
            rw [u2]
            simp only [construct]
            rw [q2]
            rfl
        | nil => exact hy.elim
        | arr _ _ _ => exact hy.elim
        | other _ _ => exact hy.elim
      | nil => exact hx.elim
      | arr _ _ _ => exact hx.elim
      | other _ _ => exact hx.elim
  obtain ⟨z, z1, z2, z3, z4⟩ := main c [] x y he hx hy hwx hwy
  refine ⟨z, ?_, ?_, z3, z4⟩
  · unfold setWith
    rw [z1]
    exact construct_deep z3
  · unfold setWith
    rw [z2]
    rfl

/-- **C105 (5).**  Whatever the validators, when all classes validate: an update of a valid instance that returns gives a valid instance. -/
theorem set_sound {st : List String → Arr → Arr → Option Arr} (caught : Err → Bool) {c : Cls} {x y z : Val} (ha : c.AllValidate)
    (hx : DeepFit c x) (hy : DeepFit c y) (h : setWith st caught true c x y = .ok z) : DeepFit c z := by
  have main : ∀ (c : Cls) (pre : List String) (x y z : Val), c.AllValidate → DeepFit c x → DeepFit c y → setFields st caught pre c x y = .ok z → FieldsFit c z → DeepFit c z := by
    intro c
    induction c with
    | nil => intro pre x y z _ _ _ _ _; trivial
    | leaf n d rest ih =>
      intro pre x y z ha hx hy hz hf
      cases x with
      | arr m a r =>
        cases y with
        | arr m' w r' =>
          unfold setFields at hz
          cases hq : setFields st caught pre rest r r' with
          | error e => rw [hq] at hz; cases hz
          | ok q =>
            rw [hq] at hz
            have hz := Except.ok.inj hz
            subst hz
            exact ⟨hf.1, ih pre r r' q ha hx.2 hy.2 hq hf.2⟩
        | nil => exact hy.elim
        | obj _ _ _ _ => exact hy.elim
        | other _ _ => exact hy.elim
      | nil => exact hx.elim
      | obj _ _ _ _ => exact hx.elim
      | other _ _ => exact hx.elim
    | nested n ish cid v sub rest ihs ihr =>
      intro pre x y z ha hx hy hz hf
      cases x with
      | obj m cid' x r =>
        cases y with
        | obj m' cid'' y r' =>
          obtain ⟨rfl, ha1, ha2⟩ := ha
          unfold setFields at hz
          cases hq : setFields st caught pre rest r r' with
          | error e =>
            rw [hq] at hz
            simp only at hz
            split at hz
            · cases hz
            · split at hz <;> cases hz
          | ok q =>
            rw [hq] at hz
            simp only at hz
            split at hz
            · rename_i u hu
              have hz := Except.ok.inj hz
              subst hz
              refine ⟨hx.1, ?_, ihr pre r r' q ha2 hx.2.2 hy.2.2 hq hf.2⟩
              cases hs : setFields st caught (pre ++ [m]) sub x y with
              | error e => rw [hs] at hu; cases hu
              | ok u' =>
                rw [hs] at hu
                obtain ⟨rfl, h2⟩ := construct_ok hu
                exact ihs (pre ++ [m]) x y u ha1 hx.2.1 hy.2.1 hs (h2 rfl)
            · split at hz
              · have hz := Except.ok.inj hz
                subst hz
                exact ⟨hx.1, hx.2.1, ihr pre r r' q ha2 hx.2.2 hy.2.2 hq hf.2⟩
              · cases hz
        | nil => exact hy.elim
        | arr _ _ _ => exact hy.elim
        | other _ _ => exact hy.elim
      | nil => exact hx.elim
      | arr _ _ _ => exact hx.elim
      | other _ _ => exact hx.elim
  unfold setWith at h
  cases hq : setFields st caught [] c x y with
  | error e => rw [hq] at h; cases h
  | ok u =>
    rw [hq] at h
    obtain ⟨rfl, h2⟩ := construct_ok h
    exact main c [] x y z ha hx hy hq (h2 rfl)

/-! ## Operations that bypass the constructor -/

/-- **C105 (6).**  `tree_map` of a function that moves whole records (from batch shape `b` to `b'`, keeping the dtype, with entries of the array) gives a valid instance, without checking. -/
theorem move_valid {f : Arr → Arr} {b b' : List Nat}
    (hf : ∀ a r, ArrWf a → a.shape = b ++ r → (f a).dtype = a.dtype ∧ (f a).shape = b' ++ r ∧ ArrWf (f a) ∧ ∀ e ∈ (f a).data, e ∈ a.data)
    {c : Cls} {x : Val} (he : c.Elementwise) (hs : Shaped b c x) (hx : DeepFit c x) : Shaped b' c (treeMap f x) ∧ DeepFit c (treeMap f x) := by
  have main : ∀ (c : Cls) (e : List Nat) (x : Val), c.Elementwise → Shaped (b ++ e) c x → DeepFit c x →
      Shaped (b' ++ e) c (treeMap f x) ∧ DeepFit c (treeMap f x) := by
    intro c
    induction c with
    | nil => intro e x _ hs _; cases x <;> first | exact ⟨trivial, trivial⟩ | exact hs.elim
    | leaf n d rest ih =>
      intro e x hel hs hx
      cases x with
      | arr m a r =>
        obtain ⟨s1, s2, s3, s4, s5⟩ := hs
        obtain ⟨f1, f2, f3, f4⟩ := hf a (e ++ d.ish) s4 (by rw [s3, List.append_assoc])
        obtain ⟨q1, q2⟩ := ih e r hel.2 s5 hx.2
        exact ⟨⟨s1, f1.trans s2, by rw [f2, List.append_assoc], f3, q1⟩,
          fits_of (w := none) hel.1 hx.1 (fun _ h => by cases h) f1 ⟨b' ++ e, by rw [f2, List.append_assoc]⟩ fun e he => Or.inl (f4 e he), q2⟩
      | nil => exact hs.elim
      | obj _ _ _ _ => exact hs.elim
      | other _ _ => exact hs.elim
    | nested n ish cid v sub rest ihs ihr =>
      intro e x hel hs hx
      cases x with
      | obj m cid' x r =>
        obtain ⟨s1, s2, s3, s4⟩ := hs
        obtain ⟨y1, y2⟩ := ihs (e ++ ish) x hel.1 (by rw [← List.append_assoc]; exact s3) hx.2.1
        obtain ⟨q1, q2⟩ := ihr e r hel.2 s4 hx.2.2
        exact ⟨⟨s1, s2, by rw [List.append_assoc]; exact y1, q1⟩, s2, y2, q2⟩
      | nil => exact hs.elim
      | arr _ _ _ => exact hs.elim
      | other _ _ => exact hs.elim
  have := main c [] x he (by rw [List.append_nil]; exact hs) hx
  rwa [List.append_nil] at this

/-- Some array field of the class has another dtype than `t`. -/
def Cls.OtherDtype (t : DType) : Cls → Prop
  | .nil => False
  | .leaf _ d rest => d.dtype ≠ t ∨ rest.OtherDtype t
  | .nested _ _ _ _ _ rest => rest.OtherDtype t

/-- **C105 (7).**  Functions that change the dtype (`astype`, the comparisons, whose fields are booleans) return, for every class with a field of another dtype, an instance that
`check_invariants` refuses; nothing is raised. -/
theorem cast_invalid {t : DType} {f : Arr → Arr} (hf : ∀ a, (f a).dtype = t) : ∀ {c : Cls} {x : Val}, c.OtherDtype t → (∃ e, check c (treeMap f x) = .error e) := by
  intro c x hc
  have main : ∀ (c : Cls) (x : Val), c.OtherDtype t → ¬ FieldsFit c (treeMap f x) := by
    intro c
    induction c with
    | nil => intro x h; exact h.elim
    | leaf n d rest ih =>
      intro x h hx
      cases x with
      | arr m a r =>
        rcases h with h | h
        · exact h (by rw [← hx.1.1, hf])
        · exact ih r h hx.2
      | nil => exact hx
      | obj _ _ _ _ => exact hx
      | other _ _ => exact hx
    | nested n ish cid v sub rest _ ih =>
      intro x h hx
      cases x with
      | obj m cid' x r => exact ih r h hx.2
      | nil => exact hx
      | arr _ _ _ => exact hx
      | other _ _ => exact hx
  obtain ⟨e, he⟩ := (validated_constructor c (treeMap f x)).2 (main c x hc)
  refine ⟨e, ?_⟩
  unfold construct at he
  rw [if_pos rfl] at he
  cases hk : check c (treeMap f x) with
  | error e' => rw [hk] at he; cases he; rfl
  | ok _ => rw [hk] at he; cases he

/-! ## Validators that can not run -/

/-- Some array field of the class has a validator that refuses every array.  Under `jit` this is every validator that branches on the entries: the condition is a traced value and
`bool` of it raises a `TypeError`. -/
def Cls.Refuses : Cls → Prop
  | .nil => False
  | .leaf _ d rest => (∃ f, d.validator = some f ∧ ∀ a, f a = false) ∨ rest.Refuses
  | .nested _ _ _ _ _ rest => rest.Refuses

/-- The nested instances of validating classes that refuse are the same. -/
def SameRefused : Cls → Val → Val → Prop
  | .nil, _, _ => True
  | .leaf _ _ rest, .arr _ _ r, .arr _ _ r' => SameRefused rest r r'
  | .nested _ _ _ v sub rest, .obj _ _ x r, .obj _ _ z r' => (v = true → sub.Refuses → z = x) ∧ SameRefused rest r r'
  | _, _, _ => False

theorem refuses_error {c : Cls} (hc : c.Refuses) (x : Val) : ∃ e, construct true c x = .error e := by
  refine (validated_constructor c x).2 fun hf => ?_
  have main : ∀ (c : Cls) (x : Val), c.Refuses → ¬ FieldsFit c x := by
    intro c
    induction c with
    | nil => intro x h; exact h.elim
    | leaf n d rest ih =>
      intro x h hx
      cases x with
      | arr m a r =>
        rcases h with ⟨f, hf, h⟩ | h
        · have := hx.1.2.2 f hf
          rw [h a] at this
          cases this
        · exact ih r h hx.2
      | nil => exact hx
      | obj _ _ _ _ => exact hx
      | other _ _ => exact hx
    | nested n ish cid v sub rest _ ih =>
      intro x h hx
      cases x with
      | obj m cid' x r => exact ih r h hx.2
      | nil => exact hx
      | arr _ _ _ => exact hx
      | other _ _ => exact hx
  exact main c x hc hf

/-- **C105 (8).**  An update that returns has left every nested instance of such a class as it was, whatever the values: under `jit` `at[].set`, and so the containers that use it, silently
drop the nested part of what they are given. -/
theorem set_drops_unchecked {st : List String → Arr → Arr → Option Arr} {caught : Err → Bool} {v : Bool} {c : Cls} {x y z : Val}
    {b b' : List Nat} (hx : Shaped b c x) (hy : Shaped b' c y) (h : setWith st caught v c x y = .ok z) : SameRefused c x z := by
  have main : ∀ (c : Cls) (pre : List String) (b b' : List Nat) (x y z : Val), Shaped b c x → Shaped b' c y → setFields st caught pre c x y = .ok z → SameRefused c x z := by
    intro c
    induction c with
    | nil => intro pre b b' x y z _ _ _; trivial
    | leaf n d rest ih =>
      intro pre b b' x y z hx hy hz
      cases x with
      | arr m a r =>
        cases y with
        | arr m' w r' =>
          unfold setFields at hz
          cases hq : setFields st caught pre rest r r' with
          | error e => rw [hq] at hz; cases hz
          | ok q =>
            rw [hq] at hz
            have hz := Except.ok.inj hz
            subst hz
            exact ih pre b b' r r' q hx.2.2.2.2 hy.2.2.2.2 hq
        | nil => exact hy.elim
        | obj _ _ _ _ => exact hy.elim
        | other _ _ => exact hy.elim
      | nil => exact hx.elim
      | obj _ _ _ _ => exact hx.elim
      | other _ _ => exact hx.elim
    | nested n ish cid v sub rest ihs ihr =>
      intro pre b b' x y z hx hy hz
      cases x with
      | obj m cid' x r =>
        cases y with
        | obj m' cid'' y r' =>
          unfold setFields at hz
          cases hq : setFields st caught pre rest r r' with
          | error e =>
            rw [hq] at hz
            simp only at hz
            split at hz
            · cases hz
            · split at hz <;> cases hz
          | ok q =>
            rw [hq] at hz
            simp only at hz
            split at hz
            · rename_i u hu
              have hz := Except.ok.inj hz
              subst hz
              refine ⟨fun hv hr => ?_, ihr pre b b' r r' q hx.2.2.2 hy.2.2.2 hq⟩
              subst hv
              exfalso
              cases hs : setFields st caught (pre ++ [m]) sub x y with
              | error e => rw [hs] at hu; cases hu
              | ok u' =>
                rw [hs] at hu
                simp only at hu
                obtain ⟨e, he⟩ := refuses_error hr u'
                rw [he] at hu
                cases hu
            · split at hz
              · have hz := Except.ok.inj hz
                subst hz
                exact ⟨fun _ _ => rfl, ihr pre b b' r r' q hx.2.2.2 hy.2.2.2 hq⟩
              · cases hz
        | nil => exact hy.elim
        | arr _ _ _ => exact hy.elim
        | other _ _ => exact hy.elim
      | nil => exact hx.elim
      | arr _ _ _ => exact hx.elim
      | other _ _ => exact hx.elim
  unfold setWith at h
  cases hq : setFields st caught [] c x y with
  | error e => rw [hq] at h; cases h
  | ok u =>
    rw [hq] at h
    obtain ⟨rfl, _⟩ := construct_ok h
    exact main c [] b b' x y z hx hy hq

/-- Non-vacuity: the validator of the nested class can not run; the update of `(5, 1), (6, 2)` at 0 by `(9, 2)` gives `(9, 1), (6, 2)`. -/
def untraceable : Cls := .leaf "cost" (u8 []) (.nested "key" [] 7 true (.leaf "id" ⟨.uint 8, [], some (.int 255), none, none, none, none, none, some fun _ => false⟩ .nil) .nil)

example : ∃ x y z, Shaped [2] untraceable x ∧ Shaped [] untraceable y ∧ setWith (setOp (fun _ => [[]]) (.basic [.int 0])) (setCatches true) true untraceable x y = .ok z ∧ z ≠ x ∧
    ∃ n ish cid sub rest, untraceable = .leaf "cost" (u8 []) (.nested n ish cid true sub rest) ∧ sub.Refuses :=
  ⟨.arr "cost" ⟨.uint 8, [2], [5, 6]⟩ (.obj "key" 7 (.arr "id" ⟨.uint 8, [2], [1, 2]⟩ .nil) .nil), .arr "cost" ⟨.uint 8, [], [9]⟩ (.obj "key" 7 (.arr "id" ⟨.uint 8, [], [2]⟩ .nil) .nil),
    .arr "cost" ⟨.uint 8, [2], [9, 6]⟩ (.obj "key" 7 (.arr "id" ⟨.uint 8, [2], [1, 2]⟩ .nil) .nil),
    ⟨rfl, rfl, rfl, rfl, rfl, rfl, ⟨rfl, rfl, rfl, rfl, trivial⟩, trivial⟩, ⟨rfl, rfl, rfl, rfl, rfl, rfl, ⟨rfl, rfl, rfl, rfl, trivial⟩, trivial⟩, by rfl, fun h => (by cases h),
    _, _, _, _, _, rfl, Or.inl ⟨_, rfl, fun _ => rfl⟩⟩

/-! ## Updates that never raise -/

/-- The instance has an array for every array field and an instance for every nested field; dtypes and shapes may be wrong, as after `astype`. -/
def Laid : Cls → Val → Prop
  | .nil, .nil => True
  | .leaf n _ rest, .arr n' _ r => n' = n ∧ Laid rest r
  | .nested n _ _ _ sub rest, .obj n' _ x r => n' = n ∧ Laid sub x ∧ Laid rest r
  | _, _ => False

theorem check_errors {c : Cls} (hn : c.NoValidator) : ∀ {x : Val} {e : Err}, check c x = .error e → e = .typeError ∨ e = .valueError := by
  induction c with
  | nil => intro x e h; cases h
  | leaf n d rest ih =>
    intro x e h
    cases x with
    | arr m a r =>
      unfold check at h
      rw [hn.1] at h
      simp only [runValidator] at h
      cases hc : checkArr d a with
      | error e' =>
        rw [hc] at h
        cases h
        unfold checkArr at hc
        by_cases h1 : a.dtype ≠ d.dtype
        · rw [if_pos h1] at hc; cases hc; exact Or.inl rfl
        rw [if_neg h1] at hc
        by_cases h2 : d.ish = []
        · rw [if_pos h2] at hc; cases hc
        rw [if_neg h2] at hc
        by_cases h3 : a.shape.length < d.ish.length
        · rw [if_pos h3] at hc; cases hc; exact Or.inr rfl
        rw [if_neg h3] at hc
        by_cases h4 : a.shape.drop (a.shape.length - d.ish.length) ≠ d.ish
        · rw [if_pos h4] at hc; cases hc; exact Or.inr rfl
        · rw [if_neg h4] at hc; cases hc
      | ok _ => rw [hc] at h; exact ih hn.2 h
    | nil => cases h; exact Or.inl rfl
    | obj _ _ _ _ => cases h; exact Or.inl rfl
    | other _ _ => cases h; exact Or.inl rfl
  | nested n ish cid v sub rest ihs ihr =>
    intro x e h
    cases x with
    | obj m cid' x r =>
      unfold check at h
      by_cases hc : cid' = cid
      · rw [if_pos hc] at h; exact ihr hn.2 h
      · rw [if_neg hc] at h; cases h; exact Or.inl rfl
    | nil => cases h; exact Or.inl rfl
    | arr _ _ _ => cases h; exact Or.inl rfl
    | other _ _ => cases h; exact Or.inl rfl

/-- **C105 (9).**  If no field has a validator, `at[].set` on an instance of a class that does not validate itself never raises, whatever the dtypes and shapes, and whatever the nested classes
check; what a nested class refuses is silently not written. -/
theorem set_never_raises {c : Cls} (hn : c.NoValidator) (st : List String → Arr → Arr → Option Arr) (u : Bool) {x y : Val} (hx : Laid c x) (hy : Laid c y) :
    ∃ z, setWith st (setCatches u) false c x y = .ok z ∧ Laid c z := by
  have main : ∀ (c : Cls) (pre : List String) (x y : Val), c.NoValidator → Laid c x → Laid c y → ∃ z, setFields st (setCatches u) pre c x y = .ok z ∧ Laid c z := by
    intro c
    induction c with
    | nil => intro pre x y _ _ _; exact ⟨.nil, rfl, trivial⟩
    | leaf n d rest ih =>
      intro pre x y hn hx hy
      cases x with
      | arr m a r =>
        cases y with
        | arr m' w r' =>
          obtain ⟨z, hz, hl⟩ := ih pre r r' hn.2 hx.2 hy.2
          unfold setFields
          rw [hz]
          exact ⟨_, rfl, hx.1, hl⟩
        | nil => exact hy.elim
        | obj _ _ _ _ => exact hy.elim
        | other _ _ => exact hy.elim
      | nil => exact hx.elim
      | obj _ _ _ _ => exact hx.elim
      | other _ _ => exact hx.elim
    | nested n ish cid v sub rest ihs ihr =>
      intro pre x y hn hx hy
      cases x with
      | obj m cid' x r =>
        cases y with
        | obj m' cid'' y r' =>
          obtain ⟨z, hz, hl⟩ := ihs (pre ++ [m]) x y hn.1 hx.2.1 hy.2.1
          obtain ⟨q, hq, hlq⟩ := ihr pre r r' hn.2 hx.2.2 hy.2.2
          unfold setFields
          rw [hz, hq]
          simp only
          cases hc : construct v sub z with
          | ok z' =>
            obtain ⟨rfl, _⟩ := construct_ok hc
            exact ⟨_, rfl, hx.1, hl, hlq⟩
          | error e =>
            have he : setCatches u e = true := by
              unfold construct at hc
              cases v with
              | false => cases hc
              | true =>
                simp only [if_true] at hc
                cases hk : check sub z with
                | ok _ => rw [hk] at hc; cases hc
                | error e' =>
                  rw [hk] at hc
                  cases hc
                  rcases check_errors hn.1 hk with rfl | rfl <;> rfl
            simp only [he, if_true]
            exact ⟨_, rfl, hx.1, hx.2.1, hlq⟩
        | nil => exact hy.elim
        | arr _ _ _ => exact hy.elim
        | other _ _ => exact hy.elim
      | nil => exact hx.elim
      | arr _ _ _ => exact hx.elim
      | other _ _ => exact hx.elim
  obtain ⟨z, hz, hl⟩ := main c [] x y hn hx hy
  refine ⟨z, ?_, hl⟩
  unfold setWith
  rw [hz]
  rfl

/-- Non-vacuity: the nested key of the batch was cast to `bool`; its class validates and refuses it, so only the cost is written. -/
example : (Cls.leaf "cost" (u8 []) (.nested "key" [] 7 true (.leaf "id" (u8 []) .nil) .nil)).NoValidator ∧
    setWith (setOp (fun _ => [[]]) (.basic [.int 0])) (setCatches false) false (.leaf "cost" (u8 []) (.nested "key" [] 7 true (.leaf "id" (u8 []) .nil) .nil))
      (.arr "cost" ⟨.uint 8, [2], [5, 6]⟩ (.obj "key" 7 (.arr "id" ⟨.bool, [2], [1, 1]⟩ .nil) .nil)) (.arr "cost" ⟨.uint 8, [], [9]⟩ (.obj "key" 7 (.arr "id" ⟨.uint 8, [], [0]⟩ .nil) .nil)) =
    .ok (.arr "cost" ⟨.uint 8, [2], [9, 6]⟩ (.obj "key" 7 (.arr "id" ⟨.bool, [2], [1, 1]⟩ .nil) .nil)) :=
  ⟨⟨rfl, ⟨rfl, trivial⟩, trivial⟩, by rfl⟩

/-! ## What is false -/

/-- A field of type `uint8` with a validator. -/
def u8v (f : Arr → Bool) : FD := ⟨.uint 8, [], some (.int 255), none, none, none, none, none, some f⟩

/-- A class with a cost and a nested key, whose `id`s the validator wants to be different. -/
def keyed (v : Bool) : Cls := .leaf "cost" (u8 []) (.nested "key" [] 7 v (.leaf "id" (u8v fun a => decide a.data.Nodup) .nil) .nil)

def keyedVal (s : List Nat) (cost ids : List Int) : Val := .arr "cost" ⟨.uint 8, s, cost⟩ (.obj "key" 7 (.arr "id" ⟨.uint 8, s, ids⟩ .nil) .nil)

/-- **C105 is false of `set`.**  All classes validate, the batch `(5, 1), (6, 2)` and the record `(9, 2)` are valid.  Setting record 0 to it would make two equal ids; the nested update
is refused, the exception is swallowed, and the result holds the record `(9, 1)`, which is neither. -/
theorem set_all_or_nothing_false : ∃ (c : Cls) (x y z : Val) (st : List String → Arr → Arr → Option Arr), c.AllValidate ∧ Keeps st ∧ Shaped [2] c x ∧ DeepFit c x ∧
    Shaped [] c y ∧ DeepFit c y ∧ setWith st (setCatches true) true c x y = .ok z ∧ setWith st condCatches true c x y = .ok z ∧ z ≠ x ∧
    setWith st (setCatches true) false c.plain x y ≠ .ok z := by
  refine ⟨keyed true, keyedVal [2] [5, 6] [1, 2], keyedVal [] [9] [2], keyedVal [2] [9, 6] [1, 2], setOp (fun _ => [[]]) (.basic [.int 0]), ⟨rfl, trivial, trivial⟩, ?_,
    ⟨rfl, rfl, rfl, rfl, rfl, rfl, ⟨rfl, rfl, rfl, rfl, trivial⟩, trivial⟩, ?_, ⟨rfl, rfl, rfl, rfl, rfl, rfl, ⟨rfl, rfl, rfl, rfl, trivial⟩, trivial⟩, ?_, ?_, ?_, ?_, ?_⟩
  · refine set_keeps _ _ fun p s R h k hk => ?_
    have : NArr.resolveBasic ([0].map Basic.int) s = some R := h
    have hr := resolve_ints [0] s
    rw [this] at hr
    rw [hr.1]
    rw [List.mem_singleton.1 hk]
    trivial
  · exact ⟨⟨rfl, ⟨[2], rfl⟩, fun f h => by cases h⟩, rfl, ⟨⟨rfl, ⟨[2], rfl⟩, fun f h => by cases h; rfl⟩, trivial⟩, trivial⟩
  · exact ⟨⟨rfl, ⟨[], rfl⟩, fun f h => by cases h⟩, rfl, ⟨⟨rfl, ⟨[], rfl⟩, fun f h => by cases h; rfl⟩, trivial⟩, trivial⟩
  · rfl
  · rfl
  · intro h
    cases h
  · intro h
    cases h

/-- With a validator that looks at the whole array, a valid batch can not be indexed: here one that wants two entries. -/
theorem getitem_total_false : ∃ (c : Cls) (x : Val), DeepFit c x ∧ Shaped [2] c x ∧ ∃ e, getitem (.basic [.int 0]) true c x = .error e :=
  ⟨.leaf "a" (u8v fun a => decide (1 < a.data.length)) .nil, .arr "a" ⟨.uint 8, [2], [3, 4]⟩ .nil, ⟨⟨rfl, ⟨[2], rfl⟩, fun f h => by cases h; rfl⟩, trivial⟩,
    ⟨rfl, rfl, rfl, rfl, trivial⟩, .user, by rfl⟩

/-! ## Examples -/

/-- Ids below 100. -/
def small : Cls := .leaf "cost" (u8 []) (.nested "key" [] 7 true (.leaf "id" (u8v fun a => a.data.all fun e => decide (e < 100)) .nil) .nil)

example : small.Elementwise ∧ small.AllValidate ∧ small.HasArr ∧ small.OtherDtype .bool ∧ DeepFit small (keyedVal [2] [5, 6] [1, 2]) ∧
    Shaped [2] small (keyedVal [2] [5, 6] [1, 2]) ∧ DeepFit small (keyedVal [] [9] [2]) ∧ Wfs (keyedVal [2] [5, 6] [1, 2]) ∧
    getitem (.basic [.int 1]) true small (keyedVal [2] [5, 6] [1, 2]) = .ok (keyedVal [] [6] [2]) ∧
    setWith (setOp (fun _ => [[]]) (.basic [.int 0])) (setCatches true) true small (keyedVal [2] [5, 6] [1, 2]) (keyedVal [] [9] [2]) = .ok (keyedVal [2] [9, 6] [2, 2]) ∧
    setWith (setOp (fun _ => [[]]) (.basic [.int 0])) (setCatches true) true small (keyedVal [2] [5, 6] [1, 2]) (keyedVal [] [9] [200]) = .ok (keyedVal [2] [9, 6] [1, 2]) ∧
    (∃ R, resolve (.basic [.int 1]) [2] = some R) := by
  refine ⟨⟨fun f h => (by cases h), ⟨fun f h => ⟨fun e => decide (e < 100), fun a => by cases h; rfl⟩, trivial⟩, trivial⟩, ⟨rfl, trivial, trivial⟩, trivial,
    Or.inl (by decide), ?_, ⟨rfl, rfl, rfl, rfl, rfl, rfl, ⟨rfl, rfl, rfl, rfl, trivial⟩, trivial⟩, ?_, ⟨rfl, ⟨rfl, trivial⟩, trivial⟩, by rfl, by rfl, by rfl, ⟨_, rfl⟩⟩
  · exact ⟨⟨rfl, ⟨[2], rfl⟩, fun f h => by cases h⟩, rfl, ⟨⟨rfl, ⟨[2], rfl⟩, fun f h => by cases h; rfl⟩, trivial⟩, trivial⟩
  · exact ⟨⟨rfl, ⟨[], rfl⟩, fun f h => by cases h⟩, rfl, ⟨⟨rfl, ⟨[], rfl⟩, fun f h => by cases h; rfl⟩, trivial⟩, trivial⟩

end Desc
