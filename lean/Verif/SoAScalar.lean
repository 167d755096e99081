import Verif.SoAAxisModel
import Verif.SoAShape

/-!
# C67: classes of scalar fields behave like arrays of records
-/

namespace NArr

variable {β γ : Type}

/-- The array with `f` applied to every entry. -/
def mapArr (f : β → γ) (a : NArr β) : NArr γ := ⟨a.shape, a.data.map f⟩

@[simp] theorem mapArr_shape (f : β → γ) (a : NArr β) : (mapArr f a).shape = a.shape := rfl

theorem mapArr_mk (f : β → γ) (a : NArr β) (s : List Nat) : (⟨s, (mapArr f a).data⟩ : NArr γ) = mapArr f ⟨s, a.data⟩ := rfl

theorem mapArr_ofFn (f : β → γ) (s : List Nat) (g : List Nat → β) : mapArr f (ofFn s g) = ofFn s fun i => f (g i) := by
  unfold mapArr ofFn SortGroup.tab
  simp

theorem mapArr_mapArr {δ : Type} (g : γ → δ) (f : β → γ) (a : NArr β) : mapArr g (mapArr f a) = mapArr (fun v => g (f v)) a := by
  unfold mapArr; simp

variable [Inhabited β] [Inhabited γ]

theorem get_mapArr {f : β → γ} (hf : f default = default) (a : NArr β) (i : List Nat) : (mapArr f a).get i = f (a.get i) := by
  unfold get mapArr
  dsimp only
  rw [List.getD_eq_getElem?_getD, List.getD_eq_getElem?_getD, List.getElem?_map]
  cases a.data[ravel a.shape i]? with
  | none => exact hf.symm
  | some v => rfl

theorem mapArr_default {f : β → γ} (hf : f default = default) : mapArr f (default : NArr β) = default := by
  show (⟨[], [f default]⟩ : NArr γ) = ⟨[], [default]⟩
  rw [hf]

theorem getD_mapArr {f : β → γ} (hf : f default = default) (as : List (NArr β)) (k : Nat) :
    (as.map (mapArr f)).getD k default = mapArr f (as.getD k default) := by
  rw [List.getD_eq_getElem?_getD, List.getD_eq_getElem?_getD, List.getElem?_map]
  cases as[k]? with
  | none => exact (mapArr_default hf).symm
  | some v => rfl

/-- `F` treats the entries of an array as opaque: it commutes with every renaming of entries. -/
def Natural (F : ∀ (β : Type) [Inhabited β], NArr β → Option (NArr β)) : Prop :=
  ∀ (β γ : Type) [Inhabited β] [Inhabited γ] (f : β → γ), f default = default → ∀ a : NArr β, F γ (mapArr f a) = (F β a).map (mapArr f)

/-- The same for a function of several arrays. -/
def NaturalN (F : ∀ (β : Type) [Inhabited β], List (NArr β) → Option (NArr β)) : Prop :=
  ∀ (β γ : Type) [Inhabited β] [Inhabited γ] (f : β → γ), f default = default → ∀ as : List (NArr β),
    F γ (as.map (mapArr f)) = (F β as).map (mapArr f)

omit [Inhabited β] [Inhabited γ] in
theorem ite_map {X Y : Type} {c : Prop} {i1 i2 : Decidable c} {x : Option X} {y : Option Y} {g : X → Y} (h : c → y = x.map g) :
    (@ite _ c i1 y none) = (@ite _ c i2 x none).map g := by
  by_cases hc : c
  · rw [if_pos hc, if_pos hc, h hc]
  · rw [if_neg hc, if_neg hc]; rfl

omit [Inhabited β] [Inhabited γ] in
theorem ite_map' {X Y : Type} {c : Prop} {i1 i2 : Decidable c} {x : Option X} {y : Option Y} {g : X → Y} (h : ¬ c → y = x.map g) :
    (@ite _ c i1 none y) = (@ite _ c i2 none x).map g := by
  by_cases hc : c
  · rw [if_pos hc, if_pos hc]; rfl
  · rw [if_neg hc, if_neg hc, h hc]

omit [Inhabited β] [Inhabited γ] in
theorem ite_map2 {X Y : Type} {c : Prop} {i1 i2 : Decidable c} {x x' : Option X} {y y' : Option Y} {g : X → Y} (h : y = x.map g)
    (h' : y' = x'.map g) : (@ite _ c i1 y y') = (@ite _ c i2 x x').map g := by
  by_cases hc : c
  · rw [if_pos hc, if_pos hc, h]
  · rw [if_neg hc, if_neg hc, h']

theorem rev_map {f : β → γ} (hf : f default = default) (a : NArr β) (ks : List Nat) : rev (mapArr f a) ks = mapArr f (rev a ks) := by
  simp only [rev, mapArr_ofFn, mapArr_shape, get_mapArr hf]

theorem mapAxis_map {f : β → γ} (hf : f default = default) (a : NArr β) (ax d : Nat) (g : Nat → Nat) :
    mapAxis (mapArr f a) ax d g = mapArr f (mapAxis a ax d g) := by
  simp only [mapAxis, mapArr_ofFn, mapArr_shape, get_mapArr hf]

omit [Inhabited β] [Inhabited γ] in
theorem flat_map (f : β → γ) (a : NArr β) : flat (mapArr f a) = mapArr f (flat a) := rfl

theorem flip_natural (axes : Option (List Int)) : Natural fun _ _ a => flip a axes := by
  intro β γ _ _ f hf a
  unfold flip
  cases axes with
  | none => simp only [Option.map_some, rev_map hf, mapArr_shape]
  | some l =>
    dsimp only [mapArr_shape]
    cases normAxes l a.shape.length <;> simp [rev_map hf]

theorem roll1_natural (s ax : Int) : Natural fun _ _ a => roll1 a s ax := by
  intro β γ _ _ f hf a
  unfold roll1
  dsimp only [mapArr_shape]
  cases normAxis ax a.shape.length <;> simp [mapAxis_map hf]

theorem rolls_map (ps : List (Int × Int)) {f : β → γ} (hf : f default = default) (a : NArr β) :
    ps.foldlM (fun a p => roll1 a p.1 p.2) (mapArr f a) = (ps.foldlM (fun a p => roll1 a p.1 p.2) a).map (mapArr f) := by
  induction ps generalizing a with
  | nil => rfl
  | cons p ps ih =>
    have e : roll1 (mapArr f a) p.1 p.2 = _ := roll1_natural p.1 p.2 β γ f hf a
    rw [List.foldlM_cons, List.foldlM_cons, e]
    dsimp only
    cases h : roll1 a p.1 p.2 with
    | none => rfl
    | some w => exact ih w

theorem roll_natural (shifts : List Int) (axes : Option (List Int)) : Natural fun _ _ a => roll a shifts axes := by
  intro β γ _ _ f hf a
  unfold roll
  cases axes with
  | some l =>
    dsimp only
    cases pairUp shifts l with
    | none => rfl
    | some ps => exact rolls_map ps hf a
  | none =>
    dsimp only
    cases pairUp shifts [0] with
    | none => rfl
    | some ps =>
      rw [Option.bind_some, Option.bind_some, flat_map, rolls_map ps hf, Option.map_map, Option.map_map]
      rfl

theorem swapaxes_natural (p q : Int) : Natural fun _ _ a => swapaxes a p q := by
  intro β γ _ _ f hf a
  unfold swapaxes
  dsimp only [mapArr_shape]
  cases normAxis p a.shape.length with
  | none => rfl
  | some x =>
    cases normAxis q a.shape.length with
    | none => rfl
    | some y => simp only [Option.bind_some, Option.map_some, mapArr_ofFn, get_mapArr hf]

theorem transpose_natural (axes : List Int) : Natural fun _ _ a => transpose a axes := by
  intro β γ _ _ f hf a
  unfold transpose
  dsimp only [mapArr_shape]
  cases axes.mapM fun ax => normAxis ax a.shape.length with
  | none => rfl
  | some p =>
    rw [Option.bind_some, Option.bind_some]
    refine ite_map fun _ => ?_
    simp only [Option.map_some, mapArr_ofFn, get_mapArr hf]

theorem rot90_natural (k p q : Int) : Natural fun _ _ a => rot90 a k p q := by
  intro β γ _ _ f hf a
  unfold rot90
  dsimp only [mapArr_shape]
  cases normAxis p a.shape.length with
  | none => rfl
  | some x =>
    cases normAxis q a.shape.length with
    | none => rfl
    | some y =>
      simp only [Option.bind_some]
      by_cases h0 : x = y
      · simp only [if_pos h0]; rfl
      · simp only [if_neg h0]
        by_cases h1 : k % 4 = 0
        · simp only [if_pos h1]; rfl
        · simp only [if_neg h1]
          by_cases h2 : k % 4 = 2
          · simp only [if_pos h2, rev_map hf]; rfl
          · simp only [if_neg h2]
            by_cases h3 : k % 4 = 1
            · simp only [if_pos h3, rev_map hf]
              exact swapaxes_natural _ _ β γ f hf _
            · simp only [if_neg h3]
              have e : swapaxes (mapArr f a) (x : Int) (y : Int) = _ := swapaxes_natural (x : Int) (y : Int) β γ f hf a
              rw [e, Option.map_map, Option.map_map]
              congr 1
              funext z
              exact rev_map hf z [y]

theorem repeat_natural (how : Repeats) (axis : Option Int) : Natural fun _ _ a => repeatAxis a how axis := by
  intro β γ _ _ f hf a
  have key : ∀ a : NArr β, ∀ ax : Int,
      ((normAxis ax (mapArr f a).shape.length).bind fun k => match how with
        | .all n => some (mapAxis (mapArr f a) k ((mapArr f a).shape.getD k 0 * n) fun p => p / n)
        | .each l =>
          let l := if l.length = 1 then List.replicate ((mapArr f a).shape.getD k 0) (l.getD 0 0) else l
          if l.length = (mapArr f a).shape.getD k 0 then some (mapAxis (mapArr f a) k l.sum fun p => (locate l p).1) else none) =
      ((normAxis ax a.shape.length).bind fun k => match how with
        | .all n => some (mapAxis a k (a.shape.getD k 0 * n) fun p => p / n)
        | .each l =>
          let l := if l.length = 1 then List.replicate (a.shape.getD k 0) (l.getD 0 0) else l
          if l.length = a.shape.getD k 0 then some (mapAxis a k l.sum fun p => (locate l p).1) else none).map (mapArr f) := by
    intro a ax
    dsimp only [mapArr_shape]
    cases normAxis ax a.shape.length with
    | none => rfl
    | some k =>
      cases how with
      | all n => simp only [Option.bind_some, Option.map_some, mapAxis_map hf]
      | each l =>
        simp only [Option.bind_some, mapAxis_map hf]
        by_cases h : (if l.length = 1 then List.replicate (a.shape.getD k 0) (l.getD 0 0) else l).length = a.shape.getD k 0
        · simp only [if_pos h]; rfl
        · simp only [if_neg h]; rfl
  unfold repeatAxis
  cases axis with
  | none => exact key (flat a) 0
  | some ax => exact key a ax

theorem squeeze_natural (axes : Option (List Int)) : Natural fun _ _ a => squeeze a axes := by
  intro β γ _ _ f hf a
  unfold squeeze
  cases axes with
  | none => rfl
  | some l =>
    dsimp only [mapArr_shape]
    cases normAxes l a.shape.length with
    | none => rfl
    | some ks =>
      simp only [Option.bind_some]
      exact ite_map fun _ => rfl

theorem expandDims_natural (axis : Int) : Natural fun _ _ a => expandDims a axis := by
  intro β γ _ _ f hf a
  unfold expandDims
  dsimp only [mapArr_shape]
  cases normAxis axis (a.shape.length + 1) <;> rfl

theorem moveaxis_natural (s d : List Int) : Natural fun _ _ a => moveaxis a s d := by
  intro β γ _ _ f hf a
  unfold moveaxis
  dsimp only [mapArr_shape]
  cases normAxes s a.shape.length with
  | none => rfl
  | some s' =>
    cases normAxes d a.shape.length with
    | none => rfl
    | some d' =>
      simp only [Option.bind_some]
      by_cases h : s'.length = d'.length
      · simp only [if_pos h]; exact transpose_natural _ β γ f hf a
      · simp only [if_neg h]; rfl

theorem broadcastTo_natural (t : List Nat) : Natural fun _ _ a => broadcastTo a t := by
  intro β γ _ _ f hf a
  unfold broadcastTo
  dsimp only [mapArr_shape]
  refine ite_map fun _ => ?_
  simp only [Option.map_some, mapArr_ofFn, get_mapArr hf]

theorem tile_natural (reps : List Nat) : Natural fun _ _ a => some (tile a reps) := by
  intro β γ _ _ f hf a
  simp only [tile, Option.map_some, mapArr_ofFn, get_mapArr hf, mapArr_shape]

theorem reshape_natural (s : List Nat) : Natural fun _ _ a => reshape a s := by
  intro β γ _ _ f hf a
  unfold reshape
  dsimp only [mapArr_shape]
  exact ite_map fun _ => rfl

omit [Inhabited β] [Inhabited γ] in
theorem atleast1d_map (f : β → γ) (a : NArr β) : atleast1d (mapArr f a) = mapArr f (atleast1d a) := by
  obtain ⟨s, l⟩ := a
  rcases s with _ | ⟨m, s⟩ <;> rfl

omit [Inhabited β] [Inhabited γ] in
theorem atleast2d_map (f : β → γ) (a : NArr β) : atleast2d (mapArr f a) = mapArr f (atleast2d a) := by
  obtain ⟨s, l⟩ := a
  rcases s with _ | ⟨m, _ | ⟨n, s⟩⟩ <;> rfl

omit [Inhabited β] [Inhabited γ] in
theorem atleast3d_map (f : β → γ) (a : NArr β) : atleast3d (mapArr f a) = mapArr f (atleast3d a) := by
  obtain ⟨s, l⟩ := a
  rcases s with _ | ⟨m, _ | ⟨n, _ | ⟨k, s⟩⟩⟩ <;> rfl

theorem index_natural (I : Index) : Natural fun _ _ a => index a I := by
  intro β γ _ _ f hf a
  unfold index
  dsimp only [mapArr_shape]
  cases resolve I a.shape with
  | none => rfl
  | some R => simp only [Option.map_some, mapArr_ofFn, get_mapArr hf]

theorem concatenate_natural (axis : Int) : NaturalN fun _ _ as => concatenate as axis := by
  intro β γ _ _ f hf as
  cases as with
  | nil => rfl
  | cons a as =>
    have e : (a :: as).map (mapArr f) = mapArr f a :: as.map (mapArr f) := rfl
    rw [e]
    unfold concatenate
    dsimp only
    rw [← e]
    dsimp only [mapArr_shape]
    cases normAxis axis a.shape.length with
    | none => rfl
    | some ax =>
      simp only [Option.bind_some, List.all_map, List.map_map, Function.comp_def, mapArr_shape]
      by_cases h : ((a :: as).all fun b => b.shape.length == a.shape.length && b.shape.eraseIdx ax == a.shape.eraseIdx ax) = true
      · simp only [if_pos h]
        simp only [Option.map_some, mapArr_ofFn, getD_mapArr hf, get_mapArr hf]
      · simp only [if_neg h]; rfl

theorem stack_natural (axis : Int) : NaturalN fun _ _ as => stack as axis := by
  intro β γ _ _ f hf as
  cases as with
  | nil => rfl
  | cons a as =>
    have e : (a :: as).map (mapArr f) = mapArr f a :: as.map (mapArr f) := rfl
    rw [e]
    unfold stack
    dsimp only
    rw [← e]
    dsimp only [mapArr_shape]
    cases normAxis axis (a.shape.length + 1) with
    | none => rfl
    | some ax =>
      simp only [Option.bind_some, List.all_map, Function.comp_def, mapArr_shape, List.length_map]
      by_cases h : ((a :: as).all fun b => b.shape == a.shape) = true
      · simp only [if_pos h]
        simp only [Option.map_some, mapArr_ofFn, getD_mapArr hf, get_mapArr hf]
      · simp only [if_neg h]; rfl

theorem vstack_natural : NaturalN fun _ _ as => vstack as := by
  intro β γ _ _ f hf as
  unfold vstack
  have := concatenate_natural 0 β γ f hf (as.map atleast2d)
  rwa [List.map_map, show (mapArr f ∘ atleast2d : NArr β → NArr γ) = atleast2d ∘ mapArr f by funext a; exact (atleast2d_map f a).symm,
    ← List.map_map] at this

theorem hstack_natural : NaturalN fun _ _ as => hstack as := by
  intro β γ _ _ f hf as
  have e : (as.map (mapArr f)).map atleast1d = (as.map atleast1d).map (mapArr f) := by
    rw [List.map_map, List.map_map]; congr 1; funext a; exact atleast1d_map f a
  unfold hstack
  dsimp only
  rw [e, getD_mapArr hf]
  exact concatenate_natural _ β γ f hf (as.map atleast1d)

theorem dstack_natural : NaturalN fun _ _ as => dstack as := by
  intro β γ _ _ f hf as
  have e : (as.map (mapArr f)).map atleast3d = (as.map atleast3d).map (mapArr f) := by
    rw [List.map_map, List.map_map]; congr 1; funext a; exact atleast3d_map f a
  unfold dstack
  dsimp only
  rw [e]
  exact concatenate_natural _ β γ f hf (as.map atleast3d)

theorem columnStack_natural : NaturalN fun _ _ as => columnStack as := by
  intro β γ _ _ f hf as
  unfold columnStack
  dsimp only
  rw [List.map_map]
  have := concatenate_natural 1 β γ f hf (as.map fun a => match a.shape with | [] => ⟨[1, 1], a.data⟩ | [n] => ⟨[n, 1], a.data⟩ | _ => a)
  rw [List.map_map] at this
  refine Eq.trans ?_ this
  dsimp only
  congr 2
  funext a
  obtain ⟨s, l⟩ := a
  rcases s with _ | ⟨m, _ | ⟨n, s⟩⟩ <;> rfl


/-! ## Functions that put a fill value where an index is out of range -/

/-- The same with a fill value. -/
def NaturalFill (F : ∀ (β : Type) [Inhabited β], β → NArr β → Option (NArr β)) : Prop :=
  ∀ (β γ : Type) [Inhabited β] [Inhabited γ] (f : β → γ), f default = default → ∀ (d : β) (a : NArr β),
    F γ (f d) (mapArr f a) = (F β d a).map (mapArr f)

theorem takeMode_natural (m : TakeMode) (s : List Nat) (inds : List Int) (axis : Int) : NaturalFill fun _ _ d a => takeMode m d a s inds axis := by
  intro β γ _ _ f hf d a
  unfold takeMode
  dsimp only [mapArr_shape]
  cases normAxis axis a.shape.length with
  | none => rfl
  | some ax =>
    dsimp only [Option.bind_some]
    refine ite_map2 ?_ ?_
    · exact ite_map fun _ => rfl
    · rw [Option.map_some, mapArr_ofFn]
      congr 2
      funext i
      cases m.pos (a.shape.getD ax 0) (inds.getD (ravel s ((i.drop ax).take s.length)) 0) with
      | none => rfl
      | some v => exact get_mapArr hf _ _

theorem take_natural (s : List Nat) (inds : List Int) (axis : Int) : NaturalFill fun _ _ d a => take d a s inds axis := by
  intro β γ _ _ f hf d a
  exact takeMode_natural .fill s inds axis β γ f hf d a

theorem takeAlongLeaf_natural (inds : NArr Int) (axis : Int) : NaturalFill fun _ _ d a => SoA.takeAlongLeaf d inds axis a := by
  intro β γ _ _ f hf d a
  unfold SoA.takeAlongLeaf
  dsimp only [mapArr_shape]
  cases normAxis axis a.shape.length with
  | none => rfl
  | some ax =>
    dsimp only [Option.bind_some]
    refine ite_map' fun _ => ?_
    rw [Option.map_map]
    congr 1
    funext i
    simp only [Function.comp_apply, takeAlong, mapArr_ofFn, get_mapArr hf, apply_ite f, mapArr_shape]

theorem padConst_natural (w : List (Nat × Nat)) : NaturalFill fun _ _ d a => padConst d a w := by
  intro β γ _ _ f hf d a
  unfold padConst
  dsimp only [mapArr_shape]
  refine ite_map fun _ => ?_
  simp only [Option.map_some, mapArr_ofFn, get_mapArr hf, apply_ite f]

end NArr

namespace SoA

open Agg NArr

variable {α : Type}

/-- Every field, at every depth, is a scalar: no intrinsic shapes. -/
def Cls.Scalar : Cls α → Prop
  | .nil => True
  | .leaf _ ish _ rest => ish = [] ∧ rest.Scalar
  | .nested _ ish sub rest => ish = [] ∧ sub.Scalar ∧ rest.Scalar

/-- There is a field that is not a nested instance, at some depth. -/
def Cls.HasEntry : Cls α → Prop
  | .nil => False
  | .leaf _ _ _ _ => True
  | .nested _ _ sub rest => sub.HasEntry ∨ rest.HasEntry

/-- The entry outside of an array of records, never shown. -/
instance : Inhabited (Inst α) := ⟨.nil⟩

/-- First entry of a record. -/
def first [Inhabited α] : Inst α → α
  | .leaf _ v _ => v
  | _ => default

/-- First nested record of a record. -/
def firstSub : Inst α → Inst α
  | .nested _ s _ => s
  | _ => .nil

/-- The remaining entries of a record. -/
def others : Inst α → Inst α
  | .leaf _ _ r => r
  | .nested _ _ r => r
  | .nil => .nil

variable [Inhabited α]

/-- Structure of arrays from an array of records: field by field. -/
def fieldsOf : Cls α → NArr (Inst α) → Tree α
  | .nil, _ => .nil
  | .leaf n _ _ rest, R => .leaf n (mapArr first R) (fieldsOf rest (mapArr others R))
  | .nested n _ sub rest, R => .nested n (fieldsOf sub (mapArr firstSub R)) (fieldsOf rest (mapArr others R))

/-- Array of records from a structure of arrays of shape `b`: record `j` holds entry `j` of every field. -/
def recordsOf (b : List Nat) (x : Tree α) : NArr (Inst α) := ofFn b fun j => treeMap (fun a => a.get j) x

/-- `r` is a record with the fields of `c`. -/
def IsRecord (c : Cls α) (r : Inst α) : Prop := ConfP (fun _ (_ : α) => True) [] c r


/-- Record whose entries are all `d`. -/
def fillRecord (d : α) : Cls α → Inst α
  | .nil => .nil
  | .leaf n _ _ rest => .leaf n d (fillRecord d rest)
  | .nested n _ sub rest => .nested n (fillRecord d sub) (fillRecord d rest)

/-! ## The two representations -/

theorem fieldsOf_recordsOf {b : List Nat} {c : Cls α} {x : Tree α} (hc : c.Scalar) (h : Conf b c x) : fieldsOf c (recordsOf b x) = x := by
  unfold Conf at h
  unfold recordsOf
  induction c generalizing x with
  | nil =>
    cases x with
    | nil => rfl
    | leaf => exact h.elim
    | nested => exact h.elim
  | leaf n ish fill rest ih =>
    cases x with
    | nil => exact h.elim
    | nested => exact h.elim
    | leaf m v r =>
      obtain ⟨rfl, ⟨h1, h2⟩, h3⟩ := h
      obtain ⟨hc1, hc2⟩ := hc
      subst hc1
      simp only [treeMap, fieldsOf, mapArr_ofFn, first, others]
      rw [ih hc2 h3]
      have : v.shape = b := by simpa using h2
      rw [← this, ofFn_get h1]
  | nested n ish sub rest ih1 ih2 =>
    cases x with
    | nil => exact h.elim
    | leaf => exact h.elim
    | nested m v r =>
      obtain ⟨rfl, h1, h3⟩ := h
      obtain ⟨hc1, hc2, hc3⟩ := hc
      subst hc1
      simp only [treeMap, fieldsOf, mapArr_ofFn, firstSub, others]
      rw [ih1 hc2 (by simpa using h1), ih2 hc3 h3]

theorem get_first (R : NArr (Inst α)) (j : List Nat) : (mapArr first R).get j = first (R.get j) := get_mapArr (f := first) rfl R j
theorem get_firstSub (R : NArr (Inst α)) (j : List Nat) : (mapArr firstSub R).get j = firstSub (R.get j) := get_mapArr (f := firstSub) rfl R j
theorem get_others (R : NArr (Inst α)) (j : List Nat) : (mapArr others R).get j = others (R.get j) := get_mapArr (f := others) rfl R j

theorem record_fieldsOf {c : Cls α} (R : NArr (Inst α)) {j : List Nat} (h : IsRecord c (R.get j)) :
    treeMap (fun a => a.get j) (fieldsOf c R) = R.get j := by
  unfold IsRecord at h
  suffices ∀ e, ConfP (fun _ (_ : α) => True) e c (R.get j) → treeMap (fun a => a.get j) (fieldsOf c R) = R.get j from this [] h
  clear h
  intro e h
  induction c generalizing R e with
  | nil =>
    cases hR : R.get j with
    | nil => rfl
    | leaf => rw [hR] at h; exact h.elim
    | nested => rw [hR] at h; exact h.elim
  | leaf n ish fill rest ih =>
    cases hR : R.get j with
    | nil => rw [hR] at h; exact h.elim
    | nested => rw [hR] at h; exact h.elim
    | leaf m v r =>
      rw [hR] at h
      obtain ⟨rfl, _, h3⟩ := h
      simp only [treeMap, fieldsOf]
      rw [ih (mapArr others R) e (by rw [get_others, hR]; exact h3), get_first, get_others, hR]
      rfl
  | nested n ish sub rest ih1 ih2 =>
    cases hR : R.get j with
    | nil => rw [hR] at h; exact h.elim
    | leaf => rw [hR] at h; exact h.elim
    | nested m v r =>
      rw [hR] at h
      obtain ⟨rfl, h2, h3⟩ := h
      simp only [treeMap, fieldsOf]
      rw [ih1 (mapArr firstSub R) _ (by rw [get_firstSub, hR]; exact h2), ih2 (mapArr others R) e (by rw [get_others, hR]; exact h3),
        get_firstSub, get_others, hR]
      rfl

theorem recordsOf_fieldsOf {c : Cls α} {R : NArr (Inst α)} (hR : R.Wf) (h : ∀ j, InB R.shape j → IsRecord c (R.get j)) :
    recordsOf R.shape (fieldsOf c R) = R := by
  refine Eq.trans (ofFn_congr fun j hj => record_fieldsOf R (h j hj)) (ofFn_get hR)

theorem conf_fieldsOf {c : Cls α} (hc : c.Scalar) {R : NArr (Inst α)} (hR : R.Wf) : Conf R.shape c (fieldsOf c R) := by
  have wf : ∀ {γ δ : Type} (f : γ → δ) (a : NArr γ), a.Wf → (mapArr f a).Wf := fun f a h => by
    unfold NArr.Wf mapArr at *; simpa using h
  unfold Conf
  suffices ∀ b, R.shape = b → ConfP (fun r (a : NArr α) => a.Wf ∧ a.shape = b ++ r) [] c (fieldsOf c R) from this _ rfl
  intro b hb
  induction c generalizing R with
  | nil => trivial
  | leaf n ish fill rest ih =>
    obtain ⟨rfl, h2⟩ := hc
    exact ⟨rfl, ⟨wf _ _ hR, by simpa using hb⟩, ih h2 (wf _ _ hR) hb⟩
  | nested n ish sub rest ih1 ih2 =>
    obtain ⟨rfl, h2, h3⟩ := hc
    exact ⟨rfl, by simpa using ih1 h2 (wf _ _ hR) hb, ih2 h3 (wf _ _ hR) hb⟩

theorem conf_isRecord {b : List Nat} {c : Cls α} {x : Tree α} (h : Conf b c x) (j : List Nat) : IsRecord c (treeMap (fun a => a.get j) x) :=
  confP_map h fun _ _ _ => trivial

/-! ## Functions of one array -/

theorem map_fieldsOf_some {F : ∀ (β : Type) [Inhabited β], NArr β → Option (NArr β)} (hF : Natural F) (c : Cls α) {R Z : NArr (Inst α)}
    (h : F (Inst α) R = some Z) : treeMapM (F α) (fieldsOf c R) = some (fieldsOf c Z) := by
  induction c generalizing R Z with
  | nil => rfl
  | leaf n ish fill rest ih =>
    simp only [fieldsOf, treeMapM]
    have e1 := hF (Inst α) α first rfl R
    have e2 := hF (Inst α) (Inst α) others rfl R
    rw [h] at e1 e2
    rw [e1, ih e2]
    rfl
  | nested n ish sub rest ih1 ih2 =>
    simp only [fieldsOf, treeMapM]
    have e1 := hF (Inst α) (Inst α) firstSub rfl R
    have e2 := hF (Inst α) (Inst α) others rfl R
    rw [h] at e1 e2
    rw [ih1 e1, ih2 e2]
    rfl

theorem map_fieldsOf_none {F : ∀ (β : Type) [Inhabited β], NArr β → Option (NArr β)} (hF : Natural F) {c : Cls α} (hc : c.HasEntry)
    {R : NArr (Inst α)} (h : F (Inst α) R = none) : treeMapM (F α) (fieldsOf c R) = none := by
  induction c generalizing R with
  | nil => exact hc.elim
  | leaf n ish fill rest ih =>
    simp only [fieldsOf, treeMapM]
    have e1 := hF (Inst α) α first rfl R
    rw [h] at e1
    rw [e1]
    rfl
  | nested n ish sub rest ih1 ih2 =>
    simp only [fieldsOf, treeMapM]
    have e1 := hF (Inst α) (Inst α) firstSub rfl R
    have e2 := hF (Inst α) (Inst α) others rfl R
    rw [h] at e1 e2
    rcases hc with hc | hc
    · rw [ih1 hc e1]; rfl
    · rw [ih2 hc e2]; cases treeMapM (F α) (fieldsOf sub (mapArr firstSub R)) <;> rfl

/-- A function of opaque entries, applied to every field, is the function applied to the array of records. -/
theorem map_fieldsOf {F : ∀ (β : Type) [Inhabited β], NArr β → Option (NArr β)} (hF : Natural F) {c : Cls α} (hc : c.HasEntry)
    (R : NArr (Inst α)) : treeMapM (F α) (fieldsOf c R) = (F (Inst α) R).map (fieldsOf c) := by
  cases h : F (Inst α) R with
  | none => exact map_fieldsOf_none hF hc h
  | some Z => exact map_fieldsOf_some hF c h

theorem map_records {F : ∀ (β : Type) [Inhabited β], NArr β → Option (NArr β)} (hF : Natural F) {b : List Nat} {c : Cls α} {x : Tree α}
    (hs : c.Scalar) (hc : c.HasEntry) (h : Conf b c x) : treeMapM (F α) x = (F (Inst α) (recordsOf b x)).map (fieldsOf c) := by
  have := map_fieldsOf hF hc (recordsOf b x)
  rwa [fieldsOf_recordsOf hs h] at this

/-! ## With a fill value -/

theorem fill_fieldsOf {F : ∀ (β : Type) [Inhabited β], β → NArr β → Option (NArr β)} (hF : NaturalFill F) (d : α) {c : Cls α} (hc : c.HasEntry)
    (R : NArr (Inst α)) : treeMapM (F α d) (fieldsOf c R) = (F (Inst α) (fillRecord d c) R).map (fieldsOf c) := by
  have some_case : ∀ (c : Cls α) (R Z : NArr (Inst α)), F (Inst α) (fillRecord d c) R = some Z →
      treeMapM (F α d) (fieldsOf c R) = some (fieldsOf c Z) := by
    intro c
    induction c with
    | nil => intro R Z _; rfl
    | leaf n ish fill rest ih =>
      intro R Z h
      simp only [fieldsOf, treeMapM]
      have e1 := hF (Inst α) α first rfl (fillRecord d (.leaf n ish fill rest)) R
      have e2 := hF (Inst α) (Inst α) others rfl (fillRecord d (.leaf n ish fill rest)) R
      rw [h] at e1 e2
      have e1' : F α d (mapArr first R) = some (mapArr first Z) := e1
      rw [e1', ih _ _ e2]
      rfl
    | nested n ish sub rest ih1 ih2 =>
      intro R Z h
      simp only [fieldsOf, treeMapM]
      have e1 := hF (Inst α) (Inst α) firstSub rfl (fillRecord d (.nested n ish sub rest)) R
      have e2 := hF (Inst α) (Inst α) others rfl (fillRecord d (.nested n ish sub rest)) R
      rw [h] at e1 e2
      rw [ih1 _ _ e1, ih2 _ _ e2]
      rfl
  have none_case : ∀ (c : Cls α) (R : NArr (Inst α)), c.HasEntry → F (Inst α) (fillRecord d c) R = none →
      treeMapM (F α d) (fieldsOf c R) = none := by
    intro c
    induction c with
    | nil => intro R hc _; exact hc.elim
    | leaf n ish fill rest ih =>
      intro R _ h
      simp only [fieldsOf, treeMapM]
      have e1 := hF (Inst α) α first rfl (fillRecord d (.leaf n ish fill rest)) R
      rw [h] at e1
      have e1' : F α d (mapArr first R) = none := e1
      rw [e1']
      rfl
    | nested n ish sub rest ih1 ih2 =>
      intro R hc h
      simp only [fieldsOf, treeMapM]
      have e1 := hF (Inst α) (Inst α) firstSub rfl (fillRecord d (.nested n ish sub rest)) R
      have e2 := hF (Inst α) (Inst α) others rfl (fillRecord d (.nested n ish sub rest)) R
      rw [h] at e1 e2
      rcases hc with hc | hc
      · rw [ih1 _ hc e1]; rfl
      · rw [ih2 _ hc e2]; cases treeMapM (F α d) (fieldsOf sub (mapArr firstSub R)) <;> rfl
  cases h : F (Inst α) (fillRecord d c) R with
  | none => exact none_case c R hc h
  | some Z => exact some_case c R Z h

theorem fill_records {F : ∀ (β : Type) [Inhabited β], β → NArr β → Option (NArr β)} (hF : NaturalFill F) (d : α) {b : List Nat} {c : Cls α}
    {x : Tree α} (hs : c.Scalar) (hc : c.HasEntry) (h : Conf b c x) :
    treeMapM (F α d) x = (F (Inst α) (fillRecord d c) (recordsOf b x)).map (fieldsOf c) := by
  have := fill_fieldsOf hF d hc (recordsOf b x)
  rwa [fieldsOf_recordsOf hs h] at this

/-! ## Functions of several arrays -/

/-- The fields of several arrays of records. -/
def fieldsL : Cls α → List (NArr (Inst α)) → Inst (List (NArr α))
  | .nil, _ => .nil
  | .leaf n _ _ rest, Rs => .leaf n (Rs.map (mapArr first)) (fieldsL rest (Rs.map (mapArr others)))
  | .nested n _ sub rest, Rs => .nested n (fieldsL sub (Rs.map (mapArr firstSub))) (fieldsL rest (Rs.map (mapArr others)))

theorem zip_fieldsL (c : Cls α) (R : NArr (Inst α)) (Rs : List (NArr (Inst α))) :
    ((zip (fieldsOf c R) (fieldsL c Rs)).map (treeMap fun p => p.1 :: p.2)) = some (fieldsL c (R :: Rs)) := by
  induction c generalizing R Rs with
  | nil => rfl
  | leaf n ish fill rest ih =>
    have := ih (mapArr others R) (Rs.map (mapArr others))
    simp only [fieldsOf, fieldsL, zip, if_true]
    cases hz : zip (fieldsOf rest (mapArr others R)) (fieldsL rest (Rs.map (mapArr others))) with
    | none => rw [hz] at this; cases this
    | some z =>
      rw [hz] at this
      simp only [Option.map_some, Option.some.injEq] at this
      simp only [Option.map_some, treeMap, this, List.map_cons]
  | nested n ish sub rest ih1 ih2 =>
    have h1 := ih1 (mapArr firstSub R) (Rs.map (mapArr firstSub))
    have h2 := ih2 (mapArr others R) (Rs.map (mapArr others))
    simp only [fieldsOf, fieldsL, zip, if_true]
    cases hz : zip (fieldsOf sub (mapArr firstSub R)) (fieldsL sub (Rs.map (mapArr firstSub))) with
    | none => rw [hz] at h1; cases h1
    | some z =>
      cases hy : zip (fieldsOf rest (mapArr others R)) (fieldsL rest (Rs.map (mapArr others))) with
      | none => rw [hy] at h2; cases h2
      | some y =>
        rw [hz] at h1; rw [hy] at h2
        simp only [Option.map_some, Option.some.injEq] at h1 h2
        simp only [Option.map_some, Option.bind_some, treeMap, h1, h2, List.map_cons]

theorem fieldsL_one (c : Cls α) (R : NArr (Inst α)) : treeMap (fun v => [v]) (fieldsOf c R) = fieldsL c [R] := by
  induction c generalizing R with
  | nil => rfl
  | leaf n ish fill rest ih => simp only [fieldsOf, fieldsL, treeMap, ih]; rfl
  | nested n ish sub rest ih1 ih2 => simp only [fieldsOf, fieldsL, treeMap, ih1, ih2]; rfl

theorem transpose_fieldsOf (c : Cls α) (R : NArr (Inst α)) (Rs : List (NArr (Inst α))) :
    SoA.transpose (fieldsOf c R) (Rs.map (fieldsOf c)) = some (fieldsL c (R :: Rs)) := by
  induction Rs generalizing R with
  | nil => simp only [List.map_nil, SoA.transpose, fieldsL_one]
  | cons S Rs ih =>
    simp only [List.map_cons, SoA.transpose]
    rw [ih S, Option.bind_some]
    exact zip_fieldsL c R (S :: Rs)

theorem mapN_fieldsL {F : ∀ (β : Type) [Inhabited β], List (NArr β) → Option (NArr β)} (hF : NaturalN F) {c : Cls α} (hc : c.HasEntry)
    (Rs : List (NArr (Inst α))) : treeMapM (F α) (fieldsL c Rs) = (F (Inst α) Rs).map (fieldsOf c) := by
  have some_case : ∀ (c : Cls α) (Rs : List (NArr (Inst α))) (Z : NArr (Inst α)), F (Inst α) Rs = some Z →
      treeMapM (F α) (fieldsL c Rs) = some (fieldsOf c Z) := by
    intro c
    induction c with
    | nil => intro R Z _; rfl
    | leaf n ish fill rest ih =>
      intro R Z h
      simp only [fieldsOf, fieldsL, treeMapM]
      have e1 := hF (Inst α) α first rfl R
      have e2 := hF (Inst α) (Inst α) others rfl R
      rw [h] at e1 e2
      rw [e1, ih _ _ e2]
      rfl
    | nested n ish sub rest ih1 ih2 =>
      intro R Z h
      simp only [fieldsOf, fieldsL, treeMapM]
      have e1 := hF (Inst α) (Inst α) firstSub rfl R
      have e2 := hF (Inst α) (Inst α) others rfl R
      rw [h] at e1 e2
      rw [ih1 _ _ e1, ih2 _ _ e2]
      rfl
  have none_case : ∀ (c : Cls α) (Rs : List (NArr (Inst α))), c.HasEntry → F (Inst α) Rs = none → treeMapM (F α) (fieldsL c Rs) = none := by
    intro c
    induction c with
    | nil => intro R hc _; exact hc.elim
    | leaf n ish fill rest ih =>
      intro R _ h
      simp only [fieldsL, treeMapM]
      have e1 := hF (Inst α) α first rfl R
      rw [h] at e1
      rw [e1]
      rfl
    | nested n ish sub rest ih1 ih2 =>
      intro R hc h
      simp only [fieldsL, treeMapM]
      have e1 := hF (Inst α) (Inst α) firstSub rfl R
      have e2 := hF (Inst α) (Inst α) others rfl R
      rw [h] at e1 e2
      rcases hc with hc | hc
      · rw [ih1 _ hc e1]; rfl
      · rw [ih2 _ hc e2]; cases treeMapM (F α) (fieldsL sub (R.map (mapArr firstSub))) <;> rfl
  cases h : F (Inst α) Rs with
  | none => exact none_case c Rs hc h
  | some Z => exact some_case c Rs Z h

/-- `xs` are instances of the class with the batch shapes `bs`. -/
def ConfAll (c : Cls α) : List (List Nat) → List (Tree α) → Prop
  | [], [] => True
  | b :: bs, x :: xs => Conf b c x ∧ ConfAll c bs xs
  | _, _ => False

/-- The arrays of records of several instances. -/
def recordsAll : List (List Nat) → List (Tree α) → List (NArr (Inst α))
  | b :: bs, x :: xs => recordsOf b x :: recordsAll bs xs
  | _, _ => []

theorem fieldsOf_recordsAll {bs : List (List Nat)} {c : Cls α} {xs : List (Tree α)} (hs : c.Scalar) (h : ConfAll c bs xs) :
    (recordsAll bs xs).map (fieldsOf c) = xs := by
  induction bs generalizing xs with
  | nil =>
    cases xs with
    | nil => rfl
    | cons => exact h.elim
  | cons b bs ih =>
    cases xs with
    | nil => exact h.elim
    | cons x xs => simp only [recordsAll, List.map_cons, fieldsOf_recordsOf hs h.1, ih h.2]

theorem mapN_records {F : ∀ (β : Type) [Inhabited β], List (NArr β) → Option (NArr β)} (hF : NaturalN F) {b : List Nat} {bs : List (List Nat)}
    {c : Cls α} {x : Tree α} {xs : List (Tree α)} (hs : c.Scalar) (hc : c.HasEntry) (h : ConfAll c (b :: bs) (x :: xs)) :
    treeMapN (F α) x xs = (F (Inst α) (recordsAll (b :: bs) (x :: xs))).map (fieldsOf c) := by
  have h1 := transpose_fieldsOf c (recordsOf b x) (recordsAll bs xs)
  rw [fieldsOf_recordsOf hs h.1, fieldsOf_recordsAll hs h.2] at h1
  unfold treeMapN
  rw [h1, Option.bind_some]
  exact mapN_fieldsL hF hc _

end SoA
