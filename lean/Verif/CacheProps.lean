import Verif.CacheModel
import Verif.PytreeProps

/-!
# C59: cached shape, dtype and structured type
-/

namespace Cache

open Io (DType)
open SoA (BShape SType fieldBatch nestedBatch finalBatch Tree)

/-! ## Specification: the metadata of the current field values, without caches -/

/-- The shape tuple of the current fields, recomputed without caches. -/
def fieldsShape (read : Nat → Option Sh) : List (List Nat) → List Val → Option (List BShape × Meta)
  | ish :: is, .arr s _ :: vs => (fieldsShape read is vs).map fun p => (fieldBatch ish s :: p.1, .tup (cutArr ish s) p.2)
  | ish :: is, .ref o :: vs =>
    (read o).bind fun sh => (nestedBatch ish sh.1).bind fun b => (fieldsShape read is vs).map fun p => (b :: p.1, .node (cutBatch ish sh.1) sh.2 p.2)
  | _, _ => some ([], .nil)

def shapeOf : Nat → Heap → Nat → Option Sh
  | 0, _, _ => none
  | n + 1, h, o => h[o]?.bind fun x => (fieldsShape (shapeOf n h) x.ishs x.fields).map fun p => (finalBatch p.1, p.2)

def fieldsDtype (read : Nat → Option Dt) : List Val → Option Dt
  | .arr _ t :: vs => (fieldsDtype read vs).map fun p => .leaf t p
  | .ref o :: vs => (read o).bind fun d => (fieldsDtype read vs).map fun p => .node d p
  | [] => some .nil

def dtypeOf : Nat → Heap → Nat → Option Dt
  | 0, _, _ => none
  | n + 1, h, o => h[o]?.bind fun x => fieldsDtype (dtypeOf n h) x.fields

/-- `s` is the shape of the current fields of `o`. -/
def ShapeIs (h : Heap) (o : Nat) (s : Sh) : Prop := ∃ n, shapeOf n h o = some s

/-- `t` is the dtype of the current fields of `o`. -/
def DtypeIs (h : Heap) (o : Nat) (t : Dt) : Prop := ∃ n, dtypeOf n h o = some t

/-- Instance `p` is `o`, or contains it at some depth. -/
inductive Contains (h : Heap) : Nat → Nat → Prop
  | refl (o : Nat) : Contains h o o
  | step {p q o : Nat} {x : Obj} : h[p]? = some x → Val.ref q ∈ x.fields → Contains h q o → Contains h p o

/-- Metadata of the object have been read. -/
def HasCache (x : Obj) : Prop := x.shapeC ≠ none ∨ x.dtypeC ≠ none ∨ x.stypeC ≠ none

/-- The assignments allowed: to an object that no object with metadata already read contains, or of an array of the same shape and dtype. -/
def Fine (h : Heap) : Op → Prop
  | .set o i v => (∀ p x, h[p]? = some x → HasCache x → ¬ Contains h p o) ∨ (∀ x, h[o]? = some x → x.fields[i]? = some v)
  | _ => True

/-- Every assignment of the program is allowed in the state in which it happens. -/
def Disciplined (n : Nat) : Heap → List Op → Prop
  | _, [] => True
  | h, op :: ops => Fine h op ∧ Disciplined n (step n h op) ops

/-! ## Proofs -/

theorem fieldsShape_mono {f g : Nat → Option Sh} (hfg : ∀ o s, f o = some s → g o = some s) : ∀ (is : List (List Nat)) (vs : List Val) (p : List BShape × Meta),
    fieldsShape f is vs = some p → fieldsShape g is vs = some p
  | [], _, p, h => by simpa [fieldsShape] using h
  | _ :: _, [], p, h => by simpa [fieldsShape] using h
  | ish :: is, .arr s t :: vs, p, h => by
    simp only [fieldsShape, Option.map_eq_some_iff] at h ⊢
    obtain ⟨q, hq, rfl⟩ := h
    exact ⟨q, fieldsShape_mono hfg is vs q hq, rfl⟩
  | ish :: is, .ref o :: vs, p, h => by
    simp only [fieldsShape, Option.map_eq_some_iff, Option.bind_eq_some_iff] at h ⊢
    obtain ⟨sh, hsh, b, hb, q, hq, rfl⟩ := h
    exact ⟨sh, hfg o sh hsh, b, hb, q, fieldsShape_mono hfg is vs q hq, rfl⟩

theorem shapeOf_succ {h : Heap} : ∀ (n : Nat) (o : Nat) (s : Sh), shapeOf n h o = some s → shapeOf (n + 1) h o = some s
  | 0, _, _, hs => by cases hs
  | n + 1, o, s, hs => by
    rw [shapeOf] at hs ⊢
    simp only [Option.map_eq_some_iff, Option.bind_eq_some_iff] at hs ⊢
    obtain ⟨x, hx, p, hp, rfl⟩ := hs
    exact ⟨x, hx, p, fieldsShape_mono (shapeOf_succ n) _ _ _ hp, rfl⟩

theorem shapeOf_le {h : Heap} {n m o : Nat} {s : Sh} (hs : shapeOf n h o = some s) (hle : n ≤ m) : shapeOf m h o = some s := by
  induction hle with
  | refl => exact hs
  | step _ ih => exact shapeOf_succ _ _ _ ih

theorem shapeIs_unique {h : Heap} {o : Nat} {s s' : Sh} (h1 : ShapeIs h o s) (h2 : ShapeIs h o s') : s = s' := by
  obtain ⟨n, h1⟩ := h1
  obtain ⟨m, h2⟩ := h2
  have e1 := shapeOf_le h1 (Nat.le_max_left n m)
  have e2 := shapeOf_le h2 (Nat.le_max_right n m)
  rw [e1] at e2
  exact Option.some.inj e2

theorem fieldsDtype_mono {f g : Nat → Option Dt} (hfg : ∀ o s, f o = some s → g o = some s) : ∀ (vs : List Val) (p : Dt),
    fieldsDtype f vs = some p → fieldsDtype g vs = some p
  | [], p, h => by simpa [fieldsDtype] using h
  | .arr s t :: vs, p, h => by
    simp only [fieldsDtype, Option.map_eq_some_iff] at h ⊢
    obtain ⟨q, hq, rfl⟩ := h
    exact ⟨q, fieldsDtype_mono hfg vs q hq, rfl⟩
  | .ref o :: vs, p, h => by
    simp only [fieldsDtype, Option.map_eq_some_iff, Option.bind_eq_some_iff] at h ⊢
    obtain ⟨sh, hsh, q, hq, rfl⟩ := h
    exact ⟨sh, hfg o sh hsh, q, fieldsDtype_mono hfg vs q hq, rfl⟩

theorem dtypeOf_succ {h : Heap} : ∀ (n : Nat) (o : Nat) (s : Dt), dtypeOf n h o = some s → dtypeOf (n + 1) h o = some s
  | 0, _, _, hs => by cases hs
  | n + 1, o, s, hs => by
    rw [dtypeOf] at hs ⊢
    simp only [Option.bind_eq_some_iff] at hs ⊢
    obtain ⟨x, hx, hp⟩ := hs
    exact ⟨x, hx, fieldsDtype_mono (dtypeOf_succ n) _ _ hp⟩

theorem dtypeOf_le {h : Heap} {n m o : Nat} {s : Dt} (hs : dtypeOf n h o = some s) (hle : n ≤ m) : dtypeOf m h o = some s := by
  induction hle with
  | refl => exact hs
  | step _ ih => exact dtypeOf_succ _ _ _ ih

theorem dtypeIs_unique {h : Heap} {o : Nat} {s s' : Dt} (h1 : DtypeIs h o s) (h2 : DtypeIs h o s') : s = s' := by
  obtain ⟨n, h1⟩ := h1
  obtain ⟨m, h2⟩ := h2
  have e1 := dtypeOf_le h1 (Nat.le_max_left n m)
  have e2 := dtypeOf_le h2 (Nat.le_max_right n m)
  rw [e1] at e2
  exact Option.some.inj e2

/-- Only caches differ. -/
def SameFields (h h' : Heap) : Prop := ∀ o : Nat, h'[o]?.map (fun x : Obj => (x.ishs, x.fields)) = h[o]?.map (fun x : Obj => (x.ishs, x.fields))

theorem SameFields.refl (h : Heap) : SameFields h h := fun _ => rfl

theorem SameFields.trans {a b c : Heap} (h1 : SameFields a b) (h2 : SameFields b c) : SameFields a c := fun o => (h2 o).trans (h1 o)

theorem SameFields.shape_eq {h h' : Heap} (hs : SameFields h h') : ∀ n o, shapeOf n h' o = shapeOf n h o
  | 0, _ => rfl
  | n + 1, o => by
    have e : shapeOf n h' = shapeOf n h := funext (hs.shape_eq n)
    rw [shapeOf, shapeOf, e]
    have := hs o
    cases h1 : h[o]? <;> cases h2 : h'[o]? <;> rw [h1, h2] at this <;> simp at this
    simp [this.1, this.2]

theorem SameFields.dtype_eq {h h' : Heap} (hs : SameFields h h') : ∀ n o, dtypeOf n h' o = dtypeOf n h o
  | 0, _ => rfl
  | n + 1, o => by
    have e : dtypeOf n h' = dtypeOf n h := funext (hs.dtype_eq n)
    rw [dtypeOf, dtypeOf, e]
    have := hs o
    cases h1 : h[o]? <;> cases h2 : h'[o]? <;> rw [h1, h2] at this <;> simp at this
    simp [this.2]

/-- The caches of one object hold the metadata of the current fields. -/
structure Good (h : Heap) (o : Nat) (x : Obj) : Prop where
  shape : ∀ s, x.shapeC = some s → ShapeIs h o s
  dtype : ∀ t, x.dtypeC = some t → DtypeIs h o t
  stype : ∀ t, x.stypeC = some t → ∃ s, ShapeIs h o s ∧ t = classify s.1

def Coherent (h : Heap) : Prop := ∀ (o : Nat) (x : Obj), h[o]? = some x → Good h o x

theorem SameFields.good {h h' : Heap} (hs : SameFields h h') {o : Nat} {x : Obj} (hg : Good h o x) : Good h' o x := by
  refine ⟨fun s e => ?_, fun t e => ?_, fun t e => ?_⟩
  · obtain ⟨n, hn⟩ := hg.shape s e
    exact ⟨n, by rw [hs.shape_eq]; exact hn⟩
  · obtain ⟨n, hn⟩ := hg.dtype t e
    exact ⟨n, by rw [hs.dtype_eq]; exact hn⟩
  · obtain ⟨s, ⟨n, hn⟩, ht⟩ := hg.stype t e
    exact ⟨s, ⟨n, by rw [hs.shape_eq]; exact hn⟩, ht⟩

theorem modify_same {h : Heap} {o : Nat} {f : Obj → Obj} (hf : ∀ x, (f x).ishs = x.ishs ∧ (f x).fields = x.fields) : SameFields h (h.modify o f) := by
  intro p
  rw [List.getElem?_modify]
  cases h[p]? with
  | none => rfl
  | some x =>
    by_cases e : o = p
    · simp [e, (hf x).1, (hf x).2]
    · simp [e]

theorem modify_coherent {h : Heap} {o : Nat} {f : Obj → Obj} (hf : ∀ x, (f x).ishs = x.ishs ∧ (f x).fields = x.fields) (hc : Coherent h)
    (hg : ∀ x, h[o]? = some x → Good h o (f x)) : Coherent (h.modify o f) := by
  intro p y hy
  refine (modify_same hf).good ?_
  rw [List.getElem?_modify] at hy
  cases hx : h[p]? with
  | none => rw [hx] at hy; simp at hy
  | some x =>
    rw [hx] at hy
    by_cases e : o = p
    · subst e
      simp at hy
      exact hy ▸ hg x hx
    · simp [e] at hy
      exact hy ▸ hc p x hx

/-- What a reading function must do. -/
structure Reads (h : Heap) (o : Nat) (n : Nat) (r : Heap × Option Sh) : Prop where
  same : SameFields h r.1
  coh : Coherent r.1
  sound : ∀ s, r.2 = some s → ShapeIs h o s
  complete : ∀ s, shapeOf n h o = some s → r.2 = some s

theorem rdFields_spec {n : Nat} {read : Heap → Nat → Heap × Option Sh} (hr : ∀ h o, Coherent h → Reads h o n (read h o)) :
    ∀ (is : List (List Nat)) (vs : List Val) (h : Heap), Coherent h →
      SameFields h (rdFields read h is vs).1 ∧ Coherent (rdFields read h is vs).1 ∧
      (∀ p, (rdFields read h is vs).2 = some p → ∃ m, fieldsShape (shapeOf m h) is vs = some p) ∧
      (∀ p, fieldsShape (shapeOf n h) is vs = some p → (rdFields read h is vs).2 = some p)
  | [], vs, h, hc => by
    cases vs <;> exact ⟨SameFields.refl h, hc, fun p hp => ⟨0, hp⟩, fun p hp => hp⟩
  | _ :: _, [], h, hc => ⟨SameFields.refl h, hc, fun p hp => ⟨0, hp⟩, fun p hp => hp⟩
  | ish :: is, .arr s t :: vs, h, hc => by
    obtain ⟨h1, h2, h3, h4⟩ := rdFields_spec hr is vs h hc
    refine ⟨h1, h2, ?_, ?_⟩
    · intro p hp
      simp only [rdFields, Option.map_eq_some_iff] at hp
      obtain ⟨q, hq, rfl⟩ := hp
      obtain ⟨m, hm⟩ := h3 q hq
      exact ⟨m, by simp only [fieldsShape, hm, Option.map_some]⟩
    · intro p hp
      simp only [fieldsShape, Option.map_eq_some_iff] at hp
      obtain ⟨q, hq, rfl⟩ := hp
      simp only [rdFields, h4 q hq, Option.map_some]
  | ish :: is, .ref o :: vs, h, hc => by
    have hrd := hr h o hc
    rw [rdFields]
    rcases hro : (read h o).2 with _ | sh
    · refine ⟨hrd.same, hrd.coh, fun p hp => ?_, fun p hp => ?_⟩
      · cases hp
      · simp only [fieldsShape, Option.map_eq_some_iff, Option.bind_eq_some_iff] at hp
        obtain ⟨sh, hsh, _⟩ := hp
        rw [hrd.complete sh hsh] at hro
        cases hro
    · simp only
      rcases hb : nestedBatch ish sh.1 with _ | b
      · refine ⟨hrd.same, hrd.coh, fun p hp => ?_, fun p hp => ?_⟩
        · cases hp
        · simp only [fieldsShape, Option.map_eq_some_iff, Option.bind_eq_some_iff] at hp
          obtain ⟨sh', hsh, b', hb', _⟩ := hp
          rw [hrd.complete sh' hsh] at hro
          cases hro
          rw [hb] at hb'
          cases hb'
      · obtain ⟨h1, h2, h3, h4⟩ := rdFields_spec hr is vs (read h o).1 hrd.coh
        refine ⟨hrd.same.trans h1, h2, fun p hp => ?_, fun p hp => ?_⟩
        · simp only [Option.map_eq_some_iff] at hp
          obtain ⟨q, hq, rfl⟩ := hp
          obtain ⟨m, hm⟩ := h3 q hq
          obtain ⟨m', hm'⟩ := hrd.sound sh hro
          have e : shapeOf m (read h o).1 = shapeOf m h := funext (hrd.same.shape_eq m)
          rw [e] at hm
          have e1 := fieldsShape_mono (fun o s hs => shapeOf_le hs (Nat.le_max_left m m')) is vs q hm
          have e2 := shapeOf_le hm' (Nat.le_max_right m m')
          refine ⟨max m m', ?_⟩
          simp only [fieldsShape, e2, Option.bind_some, hb, e1, Option.map_some]
        · simp only [fieldsShape, Option.map_eq_some_iff, Option.bind_eq_some_iff] at hp
          obtain ⟨sh', hsh, b', hb', q, hq, rfl⟩ := hp
          rw [hrd.complete sh' hsh] at hro
          cases hro
          rw [hb] at hb'
          cases hb'
          have e : shapeOf n (read h o).1 = shapeOf n h := funext (hrd.same.shape_eq n)
          simp only [h4 q (by rw [e]; exact hq), Option.map_some]

theorem rdShape_spec : ∀ (n : Nat) (h : Heap) (o : Nat), Coherent h → Reads h o n (rdShape n h o)
  | 0, h, o, hc => ⟨SameFields.refl h, hc, fun s hs => (by cases hs), fun s hs => (by cases hs)⟩
  | n + 1, h, o, hc => by
    rw [rdShape]
    rcases hx : h[o]? with _ | x
    · exact ⟨SameFields.refl h, hc, fun s hs => (by cases hs), fun s hs => (by rw [shapeOf, hx] at hs; cases hs)⟩
    · simp only
      rcases hsc : x.shapeC with _ | s
      · simp only
        obtain ⟨h1, h2, h3, h4⟩ := rdFields_spec (rdShape_spec n) x.ishs x.fields h hc
        rcases hr : (rdFields (rdShape n) h x.ishs x.fields).2 with _ | p
        · refine ⟨h1, h2, fun s hs => (by cases hs), fun s hs => ?_⟩
          rw [shapeOf, hx] at hs
          simp only [Option.bind_some, Option.map_eq_some_iff] at hs
          obtain ⟨p, hp, _⟩ := hs
          rw [h4 p hp] at hr
          cases hr
        · simp only
          have hS : ShapeIs h o (finalBatch p.1, p.2) := by
            obtain ⟨m, hm⟩ := h3 p hr
            exact ⟨m + 1, by rw [shapeOf, hx]; simp only [Option.bind_some, hm, Option.map_some]⟩
          refine ⟨h1.trans (modify_same (f := fun y => { y with shapeC := some (finalBatch p.1, p.2) }) fun _ => ⟨rfl, rfl⟩), ?_, ?_, ?_⟩
          · refine modify_coherent (f := fun y => { y with shapeC := some (finalBatch p.1, p.2) }) (fun _ => ⟨rfl, rfl⟩) h2 ?_
            intro y hy
            have hg := h2 o y hy
            refine ⟨fun s hs => ?_, hg.dtype, hg.stype⟩
            cases hs
            obtain ⟨m, hm⟩ := hS
            exact ⟨m, by rw [h1.shape_eq]; exact hm⟩
          · intro s hs
            cases hs
            exact hS
          · intro s hs
            rw [shapeIs_unique ⟨_, hs⟩ hS]
      · simp only
        refine ⟨SameFields.refl h, hc, fun s' hs' => ?_, fun s' hs' => ?_⟩
        · cases hs'
          exact (hc o x hx).shape s hsc
        · rw [shapeIs_unique ((hc o x hx).shape s hsc) ⟨_, hs'⟩]

structure ReadsD (h : Heap) (o : Nat) (n : Nat) (r : Heap × Option Dt) : Prop where
  same : SameFields h r.1
  coh : Coherent r.1
  sound : ∀ s, r.2 = some s → DtypeIs h o s
  complete : ∀ s, dtypeOf n h o = some s → r.2 = some s

theorem rdDFields_spec {n : Nat} {read : Heap → Nat → Heap × Option Dt} (hr : ∀ h o, Coherent h → ReadsD h o n (read h o)) :
    ∀ (vs : List Val) (h : Heap), Coherent h →
      SameFields h (rdDFields read h vs).1 ∧ Coherent (rdDFields read h vs).1 ∧
      (∀ p, (rdDFields read h vs).2 = some p → ∃ m, fieldsDtype (dtypeOf m h) vs = some p) ∧
      (∀ p, fieldsDtype (dtypeOf n h) vs = some p → (rdDFields read h vs).2 = some p)
  | [], h, hc => ⟨SameFields.refl h, hc, fun p hp => ⟨0, hp⟩, fun p hp => hp⟩
  | .arr s t :: vs, h, hc => by
    obtain ⟨h1, h2, h3, h4⟩ := rdDFields_spec hr vs h hc
    refine ⟨h1, h2, ?_, ?_⟩
    · intro p hp
      simp only [rdDFields, Option.map_eq_some_iff] at hp
      obtain ⟨q, hq, rfl⟩ := hp
      obtain ⟨m, hm⟩ := h3 q hq
      exact ⟨m, by simp only [fieldsDtype, hm, Option.map_some]⟩
    · intro p hp
      simp only [fieldsDtype, Option.map_eq_some_iff] at hp
      obtain ⟨q, hq, rfl⟩ := hp
      simp only [rdDFields, h4 q hq, Option.map_some]
  | .ref o :: vs, h, hc => by
    have hrd := hr h o hc
    rw [rdDFields]
    rcases hro : (read h o).2 with _ | sh
    · refine ⟨hrd.same, hrd.coh, fun p hp => ?_, fun p hp => ?_⟩
      · cases hp
      · simp only [fieldsDtype, Option.map_eq_some_iff, Option.bind_eq_some_iff] at hp
        obtain ⟨sh, hsh, _⟩ := hp
        rw [hrd.complete sh hsh] at hro
        cases hro
    · simp only
      obtain ⟨h1, h2, h3, h4⟩ := rdDFields_spec hr vs (read h o).1 hrd.coh
      refine ⟨hrd.same.trans h1, h2, fun p hp => ?_, fun p hp => ?_⟩
      · simp only [Option.map_eq_some_iff] at hp
        obtain ⟨q, hq, rfl⟩ := hp
        obtain ⟨m, hm⟩ := h3 q hq
        obtain ⟨m', hm'⟩ := hrd.sound sh hro
        have e : dtypeOf m (read h o).1 = dtypeOf m h := funext (hrd.same.dtype_eq m)
        rw [e] at hm
        have e1 := fieldsDtype_mono (fun o s hs => dtypeOf_le hs (Nat.le_max_left m m')) vs q hm
        have e2 := dtypeOf_le hm' (Nat.le_max_right m m')
        refine ⟨max m m', ?_⟩
        simp only [fieldsDtype, e2, Option.bind_some, e1, Option.map_some]
      · simp only [fieldsDtype, Option.map_eq_some_iff, Option.bind_eq_some_iff] at hp
        obtain ⟨sh', hsh, q, hq, rfl⟩ := hp
        rw [hrd.complete sh' hsh] at hro
        cases hro
        have e : dtypeOf n (read h o).1 = dtypeOf n h := funext (hrd.same.dtype_eq n)
        simp only [h4 q (by rw [e]; exact hq), Option.map_some]

theorem rdDtype_spec : ∀ (n : Nat) (h : Heap) (o : Nat), Coherent h → ReadsD h o n (rdDtype n h o)
  | 0, h, o, hc => ⟨SameFields.refl h, hc, fun s hs => (by cases hs), fun s hs => (by cases hs)⟩
  | n + 1, h, o, hc => by
    rw [rdDtype]
    rcases hx : h[o]? with _ | x
    · exact ⟨SameFields.refl h, hc, fun s hs => (by cases hs), fun s hs => (by rw [dtypeOf, hx] at hs; cases hs)⟩
    · simp only
      rcases hsc : x.dtypeC with _ | s
      · simp only
        obtain ⟨h1, h2, h3, h4⟩ := rdDFields_spec (rdDtype_spec n) x.fields h hc
        rcases hr : (rdDFields (rdDtype n) h x.fields).2 with _ | p
        · refine ⟨h1, h2, fun s hs => (by cases hs), fun s hs => ?_⟩
          rw [dtypeOf, hx] at hs
          simp only [Option.bind_some] at hs
          rw [h4 s hs] at hr
          cases hr
        · simp only
          have hS : DtypeIs h o p := by
            obtain ⟨m, hm⟩ := h3 p hr
            exact ⟨m + 1, by rw [dtypeOf, hx]; simp only [Option.bind_some, hm]⟩
          refine ⟨h1.trans (modify_same (f := fun y => { y with dtypeC := some p }) fun _ => ⟨rfl, rfl⟩), ?_, ?_, ?_⟩
          · refine modify_coherent (f := fun y => { y with dtypeC := some p }) (fun _ => ⟨rfl, rfl⟩) h2 ?_
            intro y hy
            have hg := h2 o y hy
            refine ⟨hg.shape, fun s hs => ?_, hg.stype⟩
            cases hs
            obtain ⟨m, hm⟩ := hS
            exact ⟨m, by rw [h1.dtype_eq]; exact hm⟩
          · intro s hs
            cases hs
            exact hS
          · intro s hs
            rw [dtypeIs_unique ⟨_, hs⟩ hS]
      · simp only
        refine ⟨SameFields.refl h, hc, fun s' hs' => ?_, fun s' hs' => ?_⟩
        · cases hs'
          exact (hc o x hx).dtype s hsc
        · rw [dtypeIs_unique ((hc o x hx).dtype s hsc) ⟨_, hs'⟩]

theorem rdType_spec (n : Nat) (h : Heap) (o : Nat) (hc : Coherent h) :
    Coherent (rdType n h o).1 ∧ SameFields h (rdType n h o).1 ∧ (∀ t, (rdType n h o).2 = some t → ∃ s, ShapeIs h o s ∧ t = classify s.1) ∧
    (∀ s, shapeOf n h o = some s → (rdType n h o).2 = some (classify s.1)) := by
  unfold rdType
  rcases hx : h[o]? with _ | x
  · refine ⟨hc, SameFields.refl h, fun t ht => (by cases ht), fun s hs => ?_⟩
    cases n with
    | zero => cases hs
    | succ n => rw [shapeOf, hx] at hs; cases hs
  · simp only
    rcases ht : x.stypeC with _ | t
    · simp only
      have hr := rdShape_spec n h o hc
      rcases hs : (rdShape n h o).2 with _ | s
      · refine ⟨hr.coh, hr.same, fun t ht => (by cases ht), fun s hs' => ?_⟩
        rw [hr.complete s hs'] at hs
        cases hs
      · simp only
        have hS := hr.sound s hs
        refine ⟨?_, hr.same.trans (modify_same (f := fun y => { y with stypeC := some (classify s.1) }) fun _ => ⟨rfl, rfl⟩), ?_, ?_⟩
        · refine modify_coherent (f := fun y => { y with stypeC := some (classify s.1) }) (fun _ => ⟨rfl, rfl⟩) hr.coh ?_
          intro y hy
          have hg := hr.coh o y hy
          refine ⟨hg.shape, hg.dtype, fun t ht => ?_⟩
          cases ht
          obtain ⟨m, hm⟩ := hS
          exact ⟨s, ⟨m, by rw [hr.same.shape_eq]; exact hm⟩, rfl⟩
        · intro t ht
          cases ht
          exact ⟨s, hS, rfl⟩
        · intro s' hs'
          rw [shapeIs_unique ⟨_, hs'⟩ hS]
    · refine ⟨hc, SameFields.refl h, fun t' ht' => ?_, fun s hs => ?_⟩
      · cases ht'
        exact (hc o x hx).stype t ht
      · obtain ⟨s', hs', e⟩ := (hc o x hx).stype t ht
        rw [e, shapeIs_unique hs' ⟨_, hs⟩]

/-! ### Growing the heap, assignments -/

/-- Every reference points to an existing object. -/
def Closed (h : Heap) (vals : List Val) : Prop := ∀ q, Val.ref q ∈ vals → q < h.length

theorem fieldsShape_congr {f g : Nat → Option Sh} : ∀ (is : List (List Nat)) (vs : List Val), (∀ q, Val.ref q ∈ vs → f q = g q) →
    fieldsShape f is vs = fieldsShape g is vs
  | [], _, _ => by simp [fieldsShape]
  | _ :: _, [], _ => by simp [fieldsShape]
  | _ :: is, .arr _ _ :: vs, h => by
    simp only [fieldsShape]
    rw [fieldsShape_congr is vs fun q hq => h q (List.mem_cons_of_mem _ hq)]
  | _ :: is, .ref o :: vs, h => by
    simp only [fieldsShape]
    rw [fieldsShape_congr is vs fun q hq => h q (List.mem_cons_of_mem _ hq), h o (List.mem_cons_self ..)]

theorem fieldsDtype_congr {f g : Nat → Option Dt} : ∀ (vs : List Val), (∀ q, Val.ref q ∈ vs → f q = g q) → fieldsDtype f vs = fieldsDtype g vs
  | [], _ => by simp [fieldsDtype]
  | .arr _ _ :: vs, h => by
    simp only [fieldsDtype]
    rw [fieldsDtype_congr vs fun q hq => h q (List.mem_cons_of_mem _ hq)]
  | .ref o :: vs, h => by
    simp only [fieldsDtype]
    rw [fieldsDtype_congr vs fun q hq => h q (List.mem_cons_of_mem _ hq), h o (List.mem_cons_self ..)]

theorem shapeOf_append {h : Heap} {x : Obj} : ∀ n o s, shapeOf n h o = some s → shapeOf n (h ++ [x]) o = some s
  | 0, _, _, hs => by cases hs
  | n + 1, o, s, hs => by
    rw [shapeOf] at hs ⊢
    simp only [Option.map_eq_some_iff, Option.bind_eq_some_iff] at hs ⊢
    obtain ⟨y, hy, p, hp, rfl⟩ := hs
    have hlt : o < h.length := (List.getElem?_eq_some_iff.1 hy).1
    exact ⟨y, by rw [List.getElem?_append_left hlt]; exact hy, p, fieldsShape_mono (shapeOf_append n) _ _ _ hp, rfl⟩

theorem dtypeOf_append {h : Heap} {x : Obj} : ∀ n o s, dtypeOf n h o = some s → dtypeOf n (h ++ [x]) o = some s
  | 0, _, _, hs => by cases hs
  | n + 1, o, s, hs => by
    rw [dtypeOf] at hs ⊢
    simp only [Option.bind_eq_some_iff] at hs ⊢
    obtain ⟨y, hy, hp⟩ := hs
    have hlt : o < h.length := (List.getElem?_eq_some_iff.1 hy).1
    exact ⟨y, by rw [List.getElem?_append_left hlt]; exact hy, fieldsDtype_mono (dtypeOf_append n) _ _ hp⟩

theorem append_good {h : Heap} {x y : Obj} {o : Nat} (hg : Good h o y) : Good (h ++ [x]) o y := by
  refine ⟨fun s e => ?_, fun t e => ?_, fun t e => ?_⟩
  · obtain ⟨n, hn⟩ := hg.shape s e
    exact ⟨n, shapeOf_append n o s hn⟩
  · obtain ⟨n, hn⟩ := hg.dtype t e
    exact ⟨n, dtypeOf_append n o t hn⟩
  · obtain ⟨s, ⟨n, hn⟩, ht⟩ := hg.stype t e
    exact ⟨s, ⟨n, shapeOf_append n o s hn⟩, ht⟩

theorem append_coherent {h : Heap} {x : Obj} (hc : Coherent h) (hx : Good (h ++ [x]) h.length x) : Coherent (h ++ [x]) := by
  intro o y hy
  by_cases hlt : o < h.length
  · rw [List.getElem?_append_left hlt] at hy
    exact append_good (hc o y hy)
  · have hlt' : o < (h ++ [x]).length := (List.getElem?_eq_some_iff.1 hy).1
    rw [List.length_append] at hlt'
    have ho : o = h.length := by simp at hlt'; omega
    subst ho
    simp at hy
    exact hy ▸ hx

theorem copy_shape {h : Heap} {x : Obj} {o : Nat} (hx : h[o]? = some x) {s : Sh} (hs : ShapeIs h o s) : ShapeIs (h ++ [x]) h.length s := by
  obtain ⟨n, hn⟩ := hs
  cases n with
  | zero => cases hn
  | succ n =>
    have := shapeOf_append (x := x) (n + 1) o s hn
    refine ⟨n + 1, ?_⟩
    have hlt : o < h.length := (List.getElem?_eq_some_iff.1 hx).1
    rw [shapeOf, List.getElem?_append_left hlt, hx] at this
    rw [shapeOf]
    simpa using this

theorem copy_dtype {h : Heap} {x : Obj} {o : Nat} (hx : h[o]? = some x) {s : Dt} (hs : DtypeIs h o s) : DtypeIs (h ++ [x]) h.length s := by
  obtain ⟨n, hn⟩ := hs
  cases n with
  | zero => cases hn
  | succ n =>
    have := dtypeOf_append (x := x) (n + 1) o s hn
    refine ⟨n + 1, ?_⟩
    have hlt : o < h.length := (List.getElem?_eq_some_iff.1 hx).1
    rw [dtypeOf, List.getElem?_append_left hlt, hx] at this
    rw [dtypeOf]
    simpa using this

theorem setField_get {h : Heap} {o i : Nat} {v : Val} {p : Nat} (hne : p ≠ o) : (setField h o i v)[p]? = h[p]? := by
  unfold setField
  rw [List.getElem?_modify]
  cases h[p]? with
  | none => rfl
  | some x => simp [Ne.symm hne]

theorem setField_shape {h : Heap} {o i : Nat} {v : Val} : ∀ n p, ¬ Contains h p o → shapeOf n (setField h o i v) p = shapeOf n h p
  | 0, _, _ => rfl
  | n + 1, p, hp => by
    have hne : p ≠ o := fun e => hp (e ▸ Contains.refl p)
    rw [shapeOf, shapeOf, setField_get hne]
    cases hx : h[p]? with
    | none => rfl
    | some x =>
      simp only [Option.bind_some]
      rw [fieldsShape_congr x.ishs x.fields fun q hq => setField_shape n q fun hc => hp (Contains.step hx hq hc)]

theorem setField_dtype {h : Heap} {o i : Nat} {v : Val} : ∀ n p, ¬ Contains h p o → dtypeOf n (setField h o i v) p = dtypeOf n h p
  | 0, _, _ => rfl
  | n + 1, p, hp => by
    have hne : p ≠ o := fun e => hp (e ▸ Contains.refl p)
    rw [dtypeOf, dtypeOf, setField_get hne]
    cases hx : h[p]? with
    | none => rfl
    | some x =>
      simp only [Option.bind_some]
      rw [fieldsDtype_congr x.fields fun q hq => setField_dtype n q fun hc => hp (Contains.step hx hq hc)]

theorem setField_id {h : Heap} {o i : Nat} {v : Val} (hv : ∀ x, h[o]? = some x → x.fields[i]? = some v) : setField h o i v = h := by
  apply List.ext_getElem?
  intro p
  by_cases hne : p = o
  · subst hne
    unfold setField
    rw [List.getElem?_modify]
    cases hx : h[p]? with
    | none => rfl
    | some x =>
      have hi := hv x hx
      obtain ⟨hlt, he⟩ := List.getElem?_eq_some_iff.1 hi
      have : x.fields.set i v = x.fields := by rw [← he]; exact List.set_getElem_self hlt
      simp [this]
  · exact setField_get hne

theorem set_coherent {h : Heap} {o i : Nat} {v : Val} (hc : Coherent h) (hf : Fine h (.set o i v)) : Coherent (setField h o i v) := by
  rcases hf with hf | hf
  · intro p y hy
    by_cases hne : p = o
    · subst hne
      unfold setField at hy
      rw [List.getElem?_modify] at hy
      cases hx : h[p]? with
      | none => rw [hx] at hy; simp at hy
      | some x =>
        rw [hx] at hy
        simp at hy
        have hno : ¬ HasCache x := fun hx' => hf p x hx hx' (Contains.refl p)
        subst hy
        refine ⟨fun s e => ?_, fun s e => ?_, fun s e => ?_⟩
        · exact absurd (Or.inl (by rw [show x.shapeC = some s from e]; simp)) hno
        · exact absurd (Or.inr (Or.inl (by rw [show x.dtypeC = some s from e]; simp))) hno
        · exact absurd (Or.inr (Or.inr (by rw [show x.stypeC = some s from e]; simp))) hno
    · rw [setField_get hne] at hy
      have hg := hc p y hy
      by_cases hcache : HasCache y
      · have hno := hf p y hy hcache
        refine ⟨fun s e => ?_, fun t e => ?_, fun t e => ?_⟩
        · obtain ⟨n, hn⟩ := hg.shape s e
          exact ⟨n, by rw [setField_shape n p hno]; exact hn⟩
        · obtain ⟨n, hn⟩ := hg.dtype t e
          exact ⟨n, by rw [setField_dtype n p hno]; exact hn⟩
        · obtain ⟨s, ⟨n, hn⟩, ht⟩ := hg.stype t e
          exact ⟨s, ⟨n, by rw [setField_shape n p hno]; exact hn⟩, ht⟩
      · refine ⟨fun s e => ?_, fun s e => ?_, fun s e => ?_⟩
        · exact absurd (Or.inl (by rw [e]; simp)) hcache
        · exact absurd (Or.inr (Or.inl (by rw [e]; simp))) hcache
        · exact absurd (Or.inr (Or.inr (by rw [e]; simp))) hcache
  · rw [setField_id hf]
    exact hc

theorem step_coherent {n : Nat} {h : Heap} {op : Op} (hc : Coherent h) (hf : Fine h op) : Coherent (step n h op) := by
  cases op with
  | new ishs vals => exact append_coherent hc ⟨fun s e => (by cases e), fun s e => (by cases e), fun s e => (by cases e)⟩
  | set o i v => exact set_coherent hc hf
  | copy o =>
    simp only [step]
    cases hx : h[o]? with
    | none => exact hc
    | some x =>
      have hg := hc o x hx
      refine append_coherent hc ⟨fun s e => copy_shape hx (hg.shape s e), fun s e => copy_dtype hx (hg.dtype s e), fun t e => ?_⟩
      obtain ⟨s, hs, ht⟩ := hg.stype t e
      exact ⟨s, copy_shape hx hs, ht⟩
  | shape o => exact (rdShape_spec n h o hc).coh
  | dtype o => exact (rdDtype_spec n h o hc).coh
  | stype o => exact (rdType_spec n h o hc).1
  | len o => exact (rdShape_spec n h o hc).coh

theorem run_coherent {n : Nat} : ∀ (ops : List Op) (h : Heap), Coherent h → Disciplined n h ops → Coherent (ops.foldl (step n) h)
  | [], _, hc, _ => hc
  | op :: ops, h, hc, hd => run_coherent ops (step n h op) (step_coherent hc hd.1) hd.2

/-- The first batch dimension, 1 for a single record; not defined for unstructured instances. -/
def LenIs (s : Sh) (l : Option Nat) : Prop :=
  match s.1 with
  | .tup b => l = some (b.headD 1)
  | .unstr => l = none

/-- **C59.**  After any program whose assignments to fields keep shape and dtype, or are to instances that are not (part of) an instance whose
metadata were read: `shape`, `dtype`, `structured_type` and `len` are those of the current fields, however often and in whatever order metadata were
read before, and reading changes no field. -/
theorem metadata_current_partial {n : Nat} {ops : List Op} (hd : Disciplined n [] ops) (m o : Nat) :
    (∀ s, (rdShape m (run n ops) o).2 = some s → ShapeIs (run n ops) o s) ∧
    (∀ t, (rdDtype m (run n ops) o).2 = some t → DtypeIs (run n ops) o t) ∧
    (∀ t, (rdType m (run n ops) o).2 = some t → ∃ s, ShapeIs (run n ops) o s ∧ t = classify s.1) ∧
    (∀ l, (rdLen m (run n ops) o).2 = some l → ∃ s, ShapeIs (run n ops) o s ∧ LenIs s (some l)) ∧
    SameFields (run n ops) (rdShape m (run n ops) o).1 ∧ SameFields (run n ops) (rdDtype m (run n ops) o).1 ∧
    SameFields (run n ops) (rdType m (run n ops) o).1 := by
  have hc : Coherent (run n ops) := run_coherent ops [] (fun o x hx => by simp at hx) hd
  have h1 := rdShape_spec m (run n ops) o hc
  have h2 := rdDtype_spec m (run n ops) o hc
  have h3 := rdType_spec m (run n ops) o hc
  refine ⟨h1.sound, h2.sound, h3.2.2.1, ?_, h1.same, h2.same, h3.2.1⟩
  intro l hl
  simp only [rdLen, Option.bind_eq_some_iff] at hl
  obtain ⟨⟨b, q⟩, hs, hl⟩ := hl
  refine ⟨(b, q), h1.sound _ hs, ?_⟩
  unfold LenIs
  rcases b with _ | _
  · rename_i b
    cases b with
    | nil => simp only at hl ⊢; rw [← hl]; rfl
    | cons d b => simp only at hl ⊢; rw [← hl]; rfl
  · cases hl

/-- **C59.**  Caches never make a read fail: whenever recomputing the metadata succeeds (within the same stack depth), so does reading them. -/
theorem metadata_complete {n : Nat} {ops : List Op} (hd : Disciplined n [] ops) (m o : Nat) :
    (∀ s, shapeOf m (run n ops) o = some s → (rdShape m (run n ops) o).2 = some s ∧ (rdType m (run n ops) o).2 = some (classify s.1) ∧
      LenIs s (rdLen m (run n ops) o).2) ∧
    (∀ t, dtypeOf m (run n ops) o = some t → (rdDtype m (run n ops) o).2 = some t) := by
  have hc : Coherent (run n ops) := run_coherent ops [] (fun o x hx => by simp at hx) hd
  refine ⟨fun s hs => ⟨(rdShape_spec m _ o hc).complete s hs, (rdType_spec m _ o hc).2.2.2 s hs, ?_⟩, (rdDtype_spec m _ o hc).complete⟩
  have := (rdShape_spec m _ o hc).complete s hs
  unfold rdLen LenIs
  dsimp only
  rw [this]
  obtain ⟨b, q⟩ := s
  rcases b with b | _
  · cases b <;> rfl
  · rfl

/-! ### Relation with the batch shape of C48 -/

/-- The objects reachable from the field values spell out the instance tree `x` of the class `c`. -/
def Rep {α : Type} (h : Heap) : SoA.Cls α → Tree α → List (List Nat) → List Val → Prop
  | .nil, .nil, [], [] => True
  | .leaf _ ish _ cr, .leaf _ a r, ish' :: is, .arr s _ :: vs => ish' = ish ∧ s = a.shape ∧ Rep h cr r is vs
  | .nested _ ish cs cr, .nested _ x r, ish' :: is, .ref o :: vs =>
    ish' = ish ∧ (∃ obj, h[o]? = some obj ∧ Rep h cs x obj.ishs obj.fields) ∧ Rep h cr r is vs
  | _, _, _, _ => False

theorem rep_fields {α : Type} {h : Heap} : ∀ (c : SoA.Cls α) (x : Tree α) (is : List (List Nat)) (vs : List Val), Rep h c x is vs →
    ∀ l, SoA.fieldBatches c x = some l → ∃ n q, fieldsShape (shapeOf n h) is vs = some (l, q)
  | .nil, .nil, [], [], _, l, hl => ⟨0, .nil, by cases hl; rfl⟩
  | .leaf _ ish _ cr, .leaf _ a r, ish' :: is, .arr s t :: vs, hr, l, hl => by
    obtain ⟨rfl, rfl, hr⟩ := hr
    simp only [SoA.fieldBatches, Option.map_eq_some_iff] at hl
    obtain ⟨l, hl, rfl⟩ := hl
    obtain ⟨n, q, hn⟩ := rep_fields cr r is vs hr l hl
    refine ⟨n, .tup (cutArr ish' a.shape) q, ?_⟩
    simp only [fieldsShape, hn, Option.map_some]
  | .nested _ ish cs cr, .nested _ x r, ish' :: is, .ref o :: vs, hr, l, hl => by
    obtain ⟨rfl, ⟨obj, ho, hx⟩, hr⟩ := hr
    simp only [SoA.fieldBatches, Option.map_eq_some_iff, Option.bind_eq_some_iff] at hl
    obtain ⟨l1, hl1, b, hb, l2, hl2, rfl⟩ := hl
    obtain ⟨n, q, hn⟩ := rep_fields cs x _ _ hx l1 hl1
    obtain ⟨m, q', hm⟩ := rep_fields cr r is vs hr l2 hl2
    have e1 : shapeOf (n + 1) h o = some (finalBatch l1, q) := by
      rw [shapeOf, ho]
      simp only [Option.bind_some, hn, Option.map_some]
    have e1' := shapeOf_le e1 (Nat.le_max_left (n + 1) m)
    have e2 := fieldsShape_mono (fun o s hs => shapeOf_le hs (Nat.le_max_right (n + 1) m)) is vs _ hm
    refine ⟨max (n + 1) m, .node (cutBatch ish' (finalBatch l1)) q q', ?_⟩
    simp only [fieldsShape, e1', Option.bind_some, hb, e2, Option.map_some]

/-- The shape of the current fields is the batch shape of C48 of the instance they spell out. -/
theorem shape_is_batch_shape {α : Type} [Inhabited α] {h : Heap} {o : Nat} {obj : Obj} {c : SoA.Cls α} {x : Tree α} (ho : h[o]? = some obj)
    (hr : Rep h c x obj.ishs obj.fields) {b : BShape} (hb : SoA.batchShape c x = some b) {s : Sh} (hs : ShapeIs h o s) : s.1 = b := by
  simp only [SoA.batchShape, Option.map_eq_some_iff] at hb
  obtain ⟨l, hl, rfl⟩ := hb
  obtain ⟨n, q, hn⟩ := rep_fields c x _ _ hr l hl
  have : ShapeIs h o (finalBatch l, q) := ⟨n + 1, by rw [shapeOf, ho]; simp only [Option.bind_some, hn, Option.map_some]⟩
  rw [shapeIs_unique hs this]

/-! ### What `shape` says about well-formed instances -/

/-- Every field value has shape `b ++ intrinsic`, at every depth (a nested instance with intrinsic shape `i` has batch `b ++ i` and some field); `m`
lists the declared intrinsic shapes. -/
def Fit (h : Heap) : List Nat → List (List Nat) → List Val → Meta → Prop
  | _, [], [], .nil => True
  | b, ish :: is, .arr s _ :: vs, .tup e m => s = b ++ ish ∧ e = ish ∧ Fit h b is vs m
  | b, ish :: is, .ref o :: vs, .node bb sub m =>
    bb = .tup ish ∧ (∃ x : Obj, h[o]? = some x ∧ x.ishs ≠ [] ∧ Fit h (b ++ ish) x.ishs x.fields sub) ∧ Fit h b is vs m
  | _, _, _, _ => False

theorem fieldBatch_append (b ish : List Nat) : fieldBatch ish (b ++ ish) = .tup b := by
  unfold fieldBatch
  by_cases h : ish = []
  · rw [if_pos h, h, List.append_nil]
  · rw [if_neg h, if_pos (by simp)]
    simp

theorem cutArr_append (b ish : List Nat) : cutArr ish (b ++ ish) = ish := by
  unfold cutArr
  by_cases h : ish = []
  · rw [if_pos h, h]
  · rw [if_neg h, if_pos (by simp)]

theorem cutBatch_append (b ish : List Nat) : cutBatch ish (.tup (b ++ ish)) = .tup ish := by
  unfold cutBatch
  by_cases h : ish = []
  · rw [if_pos h, h]
  · rw [if_neg h]
    simp only
    rw [if_pos (by simp)]

theorem finalBatch_const {b : List Nat} : ∀ l : List BShape, l ≠ [] → (∀ y ∈ l, y = .tup b) → finalBatch l = .tup b
  | [], h, _ => absurd rfl h
  | x :: xs, _, h => by
    have hx := h x (List.mem_cons_self ..)
    subst hx
    have : ∀ ys : List BShape, (∀ y ∈ ys, y = .tup b) → ys.foldl (fun fin x => if x = .unstr ∨ fin ≠ x then BShape.unstr else fin) (.tup b) = .tup b := by
      intro ys
      induction ys with
      | nil => intro _; rfl
      | cons y ys ih =>
        intro hy
        have hy0 := hy y (List.mem_cons_self ..)
        subst hy0
        rw [List.foldl_cons, if_neg (by simp)]
        exact ih fun z hz => hy z (List.mem_cons_of_mem _ hz)
    exact this xs fun y hy => h y (List.mem_cons_of_mem _ hy)

theorem fit_fields {h : Heap} : ∀ (m : Meta) (b : List Nat) (is : List (List Nat)) (vs : List Val), Fit h b is vs m →
    ∃ n l, fieldsShape (shapeOf n h) is vs = some (l, m) ∧ l.length = is.length ∧ ∀ y ∈ l, y = .tup b
  | .nil, b, [], [], _ => ⟨0, [], rfl, rfl, by simp⟩
  | .tup e m, b, ish :: is, .arr s t :: vs, hf => by
    obtain ⟨rfl, rfl, hf⟩ := hf
    obtain ⟨n, l, hn, hl, hb⟩ := fit_fields m b is vs hf
    refine ⟨n, .tup b :: l, ?_, by simp [hl], ?_⟩
    · simp only [fieldsShape, hn, Option.map_some, fieldBatch_append, cutArr_append]
    · intro y hy
      rcases List.mem_cons.1 hy with rfl | hy
      · rfl
      · exact hb y hy
  | .node bb sub m, b, ish :: is, .ref o :: vs, hf => by
    obtain ⟨rfl, ⟨x, hx, hne, hfx⟩, hf⟩ := hf
    obtain ⟨n, l, hn, hl, hb⟩ := fit_fields m b is vs hf
    obtain ⟨n', l', hn', hl', hb'⟩ := fit_fields sub (b ++ ish) x.ishs x.fields hfx
    have hs : shapeOf (n' + 1) h o = some (.tup (b ++ ish), sub) := by
      rw [shapeOf, hx]
      simp only [Option.bind_some, hn', Option.map_some]
      rw [finalBatch_const l' (fun e => hne (List.length_eq_zero_iff.1 (by rw [← hl', e]; rfl))) hb']
    have e1 := shapeOf_le hs (Nat.le_max_left (n' + 1) n)
    have e2 := fieldsShape_mono (fun o s hs => shapeOf_le hs (Nat.le_max_right (n' + 1) n)) is vs _ hn
    refine ⟨max (n' + 1) n, .tup b :: l, ?_, by simp [hl], ?_⟩
    · simp only [fieldsShape, e1, Option.bind_some, nestedBatch, e2, Option.map_some, fieldBatch_append, cutBatch_append]
    · intro y hy
      rcases List.mem_cons.1 hy with rfl | hy
      · rfl
      · exact hb y hy
  | .nil, _, [], _ :: _, hf => hf.elim
  | .nil, _, _ :: _, [], hf => hf.elim
  | .nil, _, _ :: _, _ :: _, hf => by simp [Fit] at hf
  | .tup _ _, _, [], _, hf => by simp [Fit] at hf
  | .tup _ _, _, _ :: _, [], hf => by simp [Fit] at hf
  | .tup _ _, _, _ :: _, .ref _ :: _, hf => by simp [Fit] at hf
  | .node _ _ _, _, [], _, hf => by simp [Fit] at hf
  | .node _ _ _, _, _ :: _, [], hf => by simp [Fit] at hf
  | .node _ _ _, _, _ :: _, .arr _ _ :: _, hf => by simp [Fit] at hf

/-- **C59.**  The shape of an instance whose fields all have batch shape `b` is `shape(batch=b, …)` with the declared intrinsic shape of every field;
the entry of a nested field is a shape tuple with the intrinsic shape as its batch. -/
theorem shape_of_fit {h : Heap} {o : Nat} {x : Obj} {b : List Nat} {m : Meta} (ho : h[o]? = some x) (hne : x.ishs ≠ [])
    (hf : Fit h b x.ishs x.fields m) : ShapeIs h o (.tup b, m) := by
  obtain ⟨n, l, hn, hl, hb⟩ := fit_fields m b x.ishs x.fields hf
  refine ⟨n + 1, ?_⟩
  rw [shapeOf, ho]
  simp only [Option.bind_some, hn, Option.map_some]
  rw [finalBatch_const l (fun e => hne (List.length_eq_zero_iff.1 (by rw [← hl, e]; rfl))) hb]

/-- The dtypes of the fields, in order. -/
def DtFit (h : Heap) : List Val → Dt → Prop
  | [], .nil => True
  | .arr _ t :: vs, .leaf t' d => t' = t ∧ DtFit h vs d
  | .ref o :: vs, .node sub d => (∃ x : Obj, h[o]? = some x ∧ DtFit h x.fields sub) ∧ DtFit h vs d
  | _, _ => False

theorem dtFit_fields {h : Heap} : ∀ (d : Dt) (vs : List Val), DtFit h vs d → ∃ n, fieldsDtype (dtypeOf n h) vs = some d
  | .nil, [], _ => ⟨0, rfl⟩
  | .leaf t' d, .arr _ t :: vs, hf => by
    obtain ⟨rfl, hf⟩ := hf
    obtain ⟨n, hn⟩ := dtFit_fields d vs hf
    exact ⟨n, by simp only [fieldsDtype, hn, Option.map_some]⟩
  | .node sub d, .ref o :: vs, hf => by
    obtain ⟨⟨x, hx, hfx⟩, hf⟩ := hf
    obtain ⟨n, hn⟩ := dtFit_fields d vs hf
    obtain ⟨n', hn'⟩ := dtFit_fields sub x.fields hfx
    have hs : dtypeOf (n' + 1) h o = some sub := by
      rw [dtypeOf, hx]
      simpa using hn'
    have e1 := dtypeOf_le hs (Nat.le_max_left (n' + 1) n)
    have e2 := fieldsDtype_mono (fun o s hs => dtypeOf_le hs (Nat.le_max_right (n' + 1) n)) vs _ hn
    exact ⟨max (n' + 1) n, by simp only [fieldsDtype, e1, Option.bind_some, e2, Option.map_some]⟩
  | .nil, .arr _ _ :: _, hf => by simp [DtFit] at hf
  | .nil, .ref _ :: _, hf => by simp [DtFit] at hf
  | .leaf _ _, [], hf => by simp [DtFit] at hf
  | .leaf _ _, .ref _ :: _, hf => by simp [DtFit] at hf
  | .node _ _, [], hf => by simp [DtFit] at hf
  | .node _ _, .arr _ _ :: _, hf => by simp [DtFit] at hf

/-- **C59.**  `dtype` is the tuple of the dtypes of the fields, nested tuples for nested fields. -/
theorem dtype_of_fields {h : Heap} {o : Nat} {x : Obj} {d : Dt} (ho : h[o]? = some x) (hf : DtFit h x.fields d) : DtypeIs h o d := by
  obtain ⟨n, hn⟩ := dtFit_fields d x.fields hf
  exact ⟨n + 1, by rw [dtypeOf, ho]; simpa using hn⟩

example : Fit [⟨[[2], []], [.arr [3, 5, 2] (.uint 8), .arr [3, 5] .bool], none, none, none⟩, ⟨[[5]], [.ref 0], none, none, none⟩] [3] [[5]] [.ref 0]
    (.node (.tup [5]) (.tup [2] (.tup [] .nil)) .nil) := by
  refine ⟨rfl, ⟨⟨[[2], []], [.arr [3, 5, 2] (.uint 8), .arr [3, 5] .bool], none, none, none⟩, rfl, by simp, rfl, rfl, rfl, rfl, trivial⟩, trivial⟩

/-! ### What the code does not guarantee -/

/-- **Assigning a field after the metadata were read leaves them stale**: `shape`, `len` and `structured_type` are still those of the old value. -/
theorem stale_after_assignment : ∃ (ops : List Op) (s : Sh), (rdShape 9 (run 9 ops) 0).2 = some s ∧ ¬ ShapeIs (run 9 ops) 0 s ∧
    (rdLen 9 (run 9 ops) 0).2 = some 3 ∧ (rdType 9 (run 9 ops) 0).2 = some .batched ∧ ShapeIs (run 9 ops) 0 (.tup [], .tup [] .nil) := by
  have hs : ShapeIs (run 9 [.new [[]] [.arr [3] (.uint 8)], .stype 0, .set 0 0 (.arr [] (.uint 8))]) 0 (.tup [], .tup [] .nil) := ⟨1, by decide +kernel⟩
  refine ⟨_, (.tup [3], .tup [] .nil), by decide +kernel, ?_, by decide +kernel, by decide +kernel, hs⟩
  intro h
  have := shapeIs_unique h hs
  exact absurd this (by decide)

/-- The same through a nested instance: the assignment is to an instance whose own metadata were never asked for. -/
theorem stale_through_nested : ∃ (ops : List Op) (s : Sh), (rdShape 9 (run 9 ops) 1).2 = some s ∧ ¬ ShapeIs (run 9 ops) 1 s ∧
    (∀ op ∈ ops, op ≠ .shape 0 ∧ op ≠ .len 0 ∧ op ≠ .stype 0 ∧ op ≠ .dtype 0) := by
  have hs : ShapeIs (run 9 [.new [[]] [.arr [3] (.uint 8)], .new [[]] [.ref 0], .shape 1, .set 0 0 (.arr [5] (.uint 8))]) 1
      (.tup [5], .node (.tup []) (.tup [] .nil) .nil) := ⟨2, by decide +kernel⟩
  refine ⟨[.new [[]] [.arr [3] (.uint 8)], .new [[]] [.ref 0], .shape 1, .set 0 0 (.arr [5] (.uint 8))], (.tup [3], .node (.tup []) (.tup [] .nil) .nil), by decide +kernel, ?_, ?_⟩
  · intro h
    have := shapeIs_unique h hs
    exact absurd this (by decide)
  · intro op hop
    simp only [List.mem_cons, List.not_mem_nil, or_false] at hop
    rcases hop with rfl | rfl | rfl | rfl <;> simp

/-- A copy (`copy.copy`, pickling) carries the stale metadata along. -/
theorem stale_copied : ∃ (ops : List Op) (s : Sh), (rdShape 9 (run 9 ops) 1).2 = some s ∧ ¬ ShapeIs (run 9 ops) 1 s := by
  have hs : ShapeIs (run 9 [.new [[]] [.arr [3] (.uint 8)], .shape 0, .set 0 0 (.arr [] (.uint 8)), .copy 0]) 1 (.tup [], .tup [] .nil) :=
    ⟨1, by decide +kernel⟩
  refine ⟨[.new [[]] [.arr [3] (.uint 8)], .shape 0, .set 0 0 (.arr [] (.uint 8)), .copy 0], (.tup [3], .tup [] .nil), by decide +kernel, ?_⟩
  intro h
  have := shapeIs_unique h hs
  exact absurd this (by decide)

/-- `tree_map` and `replace` start with empty caches: no cache attribute survives them (for classes that declare none of them as a field). -/
theorem tree_map_drops_caches {V : Type} [DecidableEq V] {hashable : V → Bool} {c : Pytree.Class} {d d' : Pytree.Attrs V} {f : V → V}
    (hok : Pytree.Ok c d) (hf : ∀ k ∈ Pytree.cacheKeys, k ∉ c.fields) (h : Pytree.treeMap hashable c f d = some d') :
    ∀ k ∈ Pytree.cacheKeys, d'.lookup k = none := by
  intro k hk
  rw [Pytree.tree_map_spec hok h k]
  simp [hf k hk]

/-- A disciplined program: assign to a fresh instance, nest it, read, replace an array by one of the same shape and dtype, copy. -/
example : Disciplined 9 [] [.new [[]] [.arr [3] (.uint 8)], .set 0 0 (.arr [4] (.uint 8)), .new [[]] [.ref 0], .shape 1, .stype 1, .dtype 1,
    .set 0 0 (.arr [4] (.uint 8)), .copy 1, .len 2] := by
  refine ⟨trivial, Or.inl ?_, trivial, trivial, trivial, trivial, Or.inr ?_, trivial, trivial, trivial⟩
  · intro p x hx hc
    cases p with
    | succ p => simp [step] at hx
    | zero =>
      simp [step] at hx
      subst hx
      rcases hc with hc | hc | hc <;> simp at hc
  · intro x hx
    have h0 : some (⟨[[]], [.arr [4] (.uint 8)], some (.tup [4], .tup [] .nil), some (.leaf (.uint 8) .nil), none⟩ : Obj) = some x := by
      rw [← hx]; decide +kernel
    cases h0
    rfl

end Cache
