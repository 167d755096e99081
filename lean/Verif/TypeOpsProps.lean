import Verif.TypeOpsModel

/-! # C80: `can_cast` and `result_type` -/

namespace TypeOps

open Agg SoA

variable {D : Type}

/-- Two instances of one class: the same field names and nesting. -/
def Skel {β γ : Type} (x : Inst β) (y : Inst γ) : Prop := FieldRel (fun _ _ => True) x y

theorem foldl_and (l : List Bool) (b : Bool) : l.foldl and b = (b && l.all id) := by
  induction l generalizing b with
  | nil => simp
  | cons v l ih => simp [ih, Bool.and_assoc]

theorem treeMapM_raises {β γ : Type} {f : β → Option γ} {x : Inst β} (hx : leaves x ≠ []) (h : ∀ v ∈ leaves x, f v = none) : treeMapM f x = none := by
  cases hz : treeMapM f x with
  | none => rfl
  | some z =>
    cases hl : leaves x with
    | nil => exact absurd hl hx
    | cons v vs =>
      have hv : v ∈ leaves x := by rw [hl]; simp
      obtain ⟨w, hw⟩ := leaves_mapM hz v hv
      rw [h v hv] at hw
      cases hw

theorem canCast_left {rule : Option (D → D → Bool)} {asDtype : Inst D → Option D} {cls : String} {x : Inst D} {t : Arg D} {w : Inst Bool}
    (h : leafwise rule cls x t = some w) : canCast rule asDtype cls x t = some ((leaves w).all id) := by
  unfold canCast
  rw [h]
  simp [foldl_and]

theorem canCast_right {rule : Option (D → D → Bool)} {asDtype : Inst D → Option D} {cls : String} {x : Inst D} {t : Arg D}
    (h : leafwise rule cls x t = none) :
    canCast rule asDtype cls x t = (broadcasted rule asDtype x t).map fun w => (leaves w).all id := by
  unfold canCast
  rw [h]
  simp [foldl_and]

theorem leafwise_other {rule : Option (D → D → Bool)} {cls cls' : String} {x y : Inst D} (h : cls' ≠ cls) :
    leafwise rule cls x (.inst cls' y) = none := by
  unfold leafwise
  simp [h]

theorem leafwise_same {rule : Option (D → D → Bool)} {cls : String} {x y : Inst D} {z : Inst (D × D)} (h : SoA.zip x y = some z) :
    leafwise rule cls x (.inst cls y) = treeMapM (fun p => rule.map fun can => can p.1 p.2) z := by
  unfold leafwise
  simp [h]

/-- **C80, one dtype.**  `can_cast(x, dtype)` is defined and true exactly when every field of `x`, nested fields included, can be cast. -/
theorem can_cast_dtype (can : D → D → Bool) (asDtype : Inst D → Option D) (cls : String) (x : Inst D) (d : D) :
    ∃ b, canCast (some can) asDtype cls x (.dtype d) = some b ∧ (b = true ↔ ∀ f ∈ leaves x, can f d = true) := by
  have hb : broadcasted (some can) asDtype x (.dtype d) = some (treeMap (fun f => can f d) x) := treeMapM_some fun _ _ => rfl
  refine ⟨_, by rw [canCast_right rfl, hb]; rfl, ?_⟩
  show (leaves (treeMap (fun f => can f d) x)).all id = true ↔ _
  rw [leaves_treeMap]
  simp

/-- **C80, two instances of one class.**  `can_cast(x, y)` is defined and true exactly when every field of `x` can be cast to the same field of `y`. -/
theorem can_cast_instance (can : D → D → Bool) (asDtype : Inst D → Option D) (cls : String) (x y : Inst D) (hs : Skel x y) :
    ∃ b, canCast (some can) asDtype cls x (.inst cls y) = some b ∧ (b = true ↔ FieldRel (fun f t => can f t = true) x y) := by
  obtain ⟨z, hz⟩ := zip_of_fieldRel hs
  have hl : leafwise (some can) cls x (.inst cls y) = some (treeMap (fun p => can p.1 p.2) z) := by
    rw [leafwise_same hz]
    exact treeMapM_some fun _ _ => rfl
  refine ⟨_, canCast_left hl, ?_⟩
  rw [leaves_treeMap, fieldRel_iff hz]
  simp

/-- **C80, an instance without fields** can be cast to anything. -/
theorem can_cast_no_fields (rule : Option (D → D → Bool)) (asDtype : Inst D → Option D) (cls : String) (t : Arg D) :
    canCast rule asDtype cls .nil t = some true := by
  cases h : leafwise rule cls .nil t with
  | none => rw [canCast_right h]; rfl
  | some w =>
    rw [canCast_left h]
    cases t with
    | dtype d => cases h
    | npType d => cases h
    | inst cls' y =>
      by_cases hc : cls' = cls
      · subst hc
        cases y with
        | nil => unfold leafwise at h; simp [SoA.zip, treeMapM] at h; subst h; rfl
        | leaf => simp [leafwise, SoA.zip] at h
        | nested => simp [leafwise, SoA.zip] at h
      · rw [leafwise_other hc] at h; cases h

/-- **C80, a numpy scalar type** such as `np.float32` makes `can_cast` of an instance with fields raise, whatever the fields are, although the same
dtype written `jnp.float32` or `np.dtype("float32")` does not (`can_cast_dtype`). -/
theorem can_cast_scalar_type_raises (rule : Option (D → D → Bool)) (asDtype : Inst D → Option D) (cls : String) {x : Inst D} (hx : leaves x ≠ [])
    (d : D) : canCast rule asDtype cls x (.npType d) = none := by
  have hb : broadcasted rule asDtype x (.npType d) = none := treeMapM_raises hx fun _ _ => rfl
  rw [canCast_right rfl, hb]
  rfl

/-- **C80, an instance of another class** is never compared field by field: `can_cast` raises, or treats it as the one dtype numpy makes of the tuple of
its field dtypes. -/
theorem can_cast_other_class (can : D → D → Bool) (asDtype : Inst D → Option D) {cls cls' : String} (hc : cls' ≠ cls) {x : Inst D}
    (hx : leaves x ≠ []) (y : Inst D) :
    canCast (some can) asDtype cls x (.inst cls' y) =
      (asDtype y).bind fun d => canCast (some can) asDtype cls x (.dtype d) := by
  rw [canCast_right (leafwise_other hc)]
  cases h : asDtype y with
  | none =>
    have hb : broadcasted (some can) asDtype x (.inst cls' y) = none := treeMapM_raises hx fun _ _ => by simp [leafCan, h]
    rw [hb]
    rfl
  | some d =>
    have hb : broadcasted (some can) asDtype x (.inst cls' y) = some (treeMap (fun f => can f d) x) :=
      treeMapM_some fun _ _ => by simp [leafCan, h]
    have hb' : broadcasted (some can) asDtype x (.dtype d) = some (treeMap (fun f => can f d) x) := treeMapM_some fun _ _ => rfl
    simp only [Option.bind_some]
    rw [canCast_right rfl, hb, hb']

/-- An unknown casting rule raises when there is a field. -/
theorem can_cast_bad_rule (asDtype : Inst D → Option D) (cls : String) {x : Inst D} (hx : leaves x ≠ []) (t : Arg D)
    (hs : ∀ y, t = .inst cls y → Skel x y) : canCast none asDtype cls x t = none := by
  have hb : broadcasted none asDtype x t = none := by
    refine treeMapM_raises hx fun v _ => ?_
    cases t with
    | dtype d => rfl
    | npType d => rfl
    | inst c y => cases h : asDtype y <;> simp [leafCan, h]
  have hl : leafwise none cls x t = none := by
    cases t with
    | dtype d => rfl
    | npType d => rfl
    | inst c y =>
      by_cases h : c = cls
      · subst h
        obtain ⟨z, hz⟩ := zip_of_fieldRel (hs y rfl)
        rw [leafwise_same hz]
        exact treeMapM_raises (fun hn => hx ((leaves_zip_nil hz).1 hn)) fun _ _ => rfl
      · exact leafwise_other h
  rw [canCast_right hl, hb]
  rfl

/-! ## `result_type` -/

theorem instancesOf_map (cls : String) (ys : List (Inst D)) : instancesOf cls (ys.map (Arg.inst cls)) = some ys := by
  induction ys with
  | nil => rfl
  | cons y ys ih => simp [instancesOf, ih]

theorem instancesOf_eq {cls : String} {args : List (Arg D)} {ys : List (Inst D)} (h : instancesOf cls args = some ys) :
    args = ys.map (Arg.inst cls) := by
  induction args generalizing ys with
  | nil => cases h; rfl
  | cons a args ih =>
    cases a with
    | dtype d => cases h
    | npType d => cases h
    | inst c y =>
      unfold instancesOf at h
      by_cases hc : c = cls
      · rw [if_pos hc] at h
        cases h' : instancesOf cls args with
        | none => rw [h'] at h; cases h
        | some zs =>
          rw [h'] at h
          cases h
          rw [ih h', hc]
          rfl
      · rw [if_neg hc] at h; cases h

theorem skel_refl {β : Type} (x : Inst β) : Skel x x := by
  unfold Skel
  induction x with
  | nil => exact trivial
  | leaf n v r ih => exact ⟨rfl, trivial, ih⟩
  | nested n s r ih1 ih2 => exact ⟨rfl, ih1, ih2⟩

theorem skel_treeMap {β γ : Type} (f : β → γ) (x : Inst β) : Skel x (treeMap f x) := by
  unfold Skel
  induction x with
  | nil => exact trivial
  | leaf n v r ih => exact ⟨rfl, trivial, ih⟩
  | nested n s r ih1 ih2 => exact ⟨rfl, ih1, ih2⟩

theorem skel_trans {β γ δ : Type} {x : Inst β} {y : Inst γ} {z : Inst δ} (h : Skel x y) (h' : Skel y z) : Skel x z := by
  unfold Skel at h h' ⊢
  induction x generalizing y z with
  | nil => cases y with
    | nil => cases z with
      | nil => exact trivial
      | leaf => exact h'.elim
      | nested => exact h'.elim
    | leaf => exact h.elim
    | nested => exact h.elim
  | leaf n v r ih => cases y with
    | nil => exact h.elim
    | nested => exact h.elim
    | leaf => cases z with
      | nil => exact h'.elim
      | nested => exact h'.elim
      | leaf => exact ⟨h.1.trans h'.1, trivial, ih h.2.2 h'.2.2⟩
  | nested n s r ih1 ih2 => cases y with
    | nil => exact h.elim
    | leaf => exact h.elim
    | nested => cases z with
      | nil => exact h'.elim
      | leaf => exact h'.elim
      | nested => exact ⟨h.1.trans h'.1, ih1 h.2.1 h'.2.1, ih2 h.2.2 h'.2.2⟩

theorem skel_symm {β γ : Type} {x : Inst β} {y : Inst γ} (h : Skel x y) : Skel y x := by
  unfold Skel at h ⊢
  induction x generalizing y with
  | nil => cases y with
    | nil => exact trivial
    | leaf => exact h.elim
    | nested => exact h.elim
  | leaf n v r ih => cases y with
    | nil => exact h.elim
    | nested => exact h.elim
    | leaf => exact ⟨h.1.symm, trivial, ih h.2.2⟩
  | nested n s r ih1 ih2 => cases y with
    | nil => exact h.elim
    | leaf => exact h.elim
    | nested => exact ⟨h.1.symm, ih1 h.2.1, ih2 h.2.2⟩

theorem skel_mapM {β γ : Type} {f : β → Option γ} {x : Inst β} {z : Inst γ} (h : treeMapM f x = some z) : Skel x z := by
  have e := treeMapM_map (g := fun _ => ()) (h := fun _ => ()) h (fun _ _ _ _ => rfl)
  exact skel_trans (skel_treeMap (fun _ => ()) x) (e ▸ skel_symm (skel_treeMap (fun _ => ()) z))

/-- The arguments of `transpose` have one structure, which is that of the result, and leaf `i` of the result is the list of the leaves `i`. -/
theorem transpose_spec {x : Inst D} {ys : List (Inst D)} {t : Inst (List D)} (h : transpose x ys = some t) :
    (∀ y ∈ x :: ys, Skel y t) ∧ ∀ (i : Nat), i < (leaves x).length → (leaves t)[i]? = some ((x :: ys).filterMap fun y => (leaves y)[i]?) := by
  induction ys generalizing x t with
  | nil =>
    simp only [transpose, Option.some.injEq] at h
    subst h
    refine ⟨fun y hy => ?_, fun i hi => ?_⟩
    · simp only [List.mem_singleton] at hy
      subst hy
      exact skel_treeMap _ _
    · rw [leaves_treeMap, List.getElem?_map, List.getElem?_eq_getElem hi]
      simp [List.getElem?_eq_getElem hi]
  | cons y ys ih =>
    simp only [transpose] at h
    cases hy : transpose y ys with
    | none => rw [hy] at h; cases h
    | some t' =>
      rw [hy] at h
      simp only [Option.bind_some] at h
      cases hz : SoA.zip x t' with
      | none => rw [hz] at h; cases h
      | some z =>
        rw [hz] at h
        simp only [Option.map_some, Option.some.injEq] at h
        subst h
        obtain ⟨h1, h2⟩ := zip_proj hz
        obtain ⟨i1, i2⟩ := ih hy
        have sz : Skel z (treeMap (fun p => p.1 :: p.2) z) := skel_treeMap _ _
        refine ⟨fun u hu => ?_, fun i hi => ?_⟩
        · rcases List.mem_cons.1 hu with rfl | hu
          · exact skel_trans (h1 ▸ skel_symm (skel_treeMap _ _)) sz
          · exact skel_trans (i1 u hu) (skel_trans (h2 ▸ skel_symm (skel_treeMap _ _)) sz)
        · have hl : (leaves x).length = (leaves z).length := by rw [← h1, leaves_treeMap, List.length_map]
          have hl' : (leaves t').length = (leaves z).length := by rw [← h2, leaves_treeMap, List.length_map]
          have hiz : i < (leaves z).length := by omega
          rw [leaves_treeMap, List.getElem?_map, List.getElem?_eq_getElem hiz]
          simp only [Option.map_some, Option.some.injEq]
          have e1 : (leaves x)[i]? = some (leaves z)[i].1 := by
            rw [← h1, leaves_treeMap, List.getElem?_map, List.getElem?_eq_getElem hiz]; rfl
          have e2 : (leaves t')[i]? = some (leaves z)[i].2 := by
            rw [← h2, leaves_treeMap, List.getElem?_map, List.getElem?_eq_getElem hiz]; rfl
          rw [List.filterMap_cons, e1]
          simp only
          have hly : (leaves y).length = (leaves t').length := by
            obtain ⟨w, hw⟩ := zip_of_fieldRel (i1 y (by simp))
            obtain ⟨w1, w2⟩ := zip_proj hw
            rw [← w1, ← w2, leaves_treeMap, leaves_treeMap, List.length_map, List.length_map]
          have := i2 i (by omega)
          rw [e2] at this
          simp only [Option.some.injEq] at this
          rw [this]

/-- Instances of one structure can be transposed. -/
theorem transpose_some {x : Inst D} {ys : List (Inst D)} (h : ∀ y ∈ ys, Skel x y) : ∃ t, transpose x ys = some t := by
  induction ys generalizing x with
  | nil => exact ⟨_, rfl⟩
  | cons y ys ih =>
    have hxy := h y (by simp)
    obtain ⟨t, ht⟩ := ih (x := y) fun u hu => skel_trans (skel_symm hxy) (h u (by simp [hu]))
    have st := (transpose_spec ht).1 y (by simp)
    obtain ⟨z, hz⟩ := zip_of_fieldRel (skel_trans hxy st)
    exact ⟨treeMap (fun p => p.1 :: p.2) z, by simp only [transpose, ht, Option.bind_some, hz, Option.map_some]⟩

/-- **C80, `result_type`.**  A result is returned only when all arguments are instances of one class; it is an instance of that class, and each of its fields
is the result type of that field over the arguments, in their order. -/
theorem result_type_fields (rt : List D → Option D) {args : List (Arg D)} {cls : String} {z : Inst D} (h : resultTypeInst rt args = some (cls, z)) :
    ∃ x ys, args = (x :: ys).map (Arg.inst cls) ∧ (∀ y ∈ x :: ys, Skel y z) ∧
      ∀ (i : Nat), i < (leaves x).length → rt ((x :: ys).filterMap fun y => (leaves y)[i]?) = (leaves z)[i]? := by
  unfold resultTypeInst at h
  cases args with
  | nil => cases h
  | cons a r =>
    cases a with
    | dtype d => cases h
    | npType d => cases h
    | inst c x =>
      simp only at h
      cases hi : instancesOf c r with
      | none => rw [hi] at h; cases h
      | some ys =>
        rw [hi] at h
        simp only [Option.bind_some] at h
        cases ht : transpose x ys with
        | none => rw [ht] at h; cases h
        | some t =>
          rw [ht] at h
          simp only [Option.bind_some] at h
          cases hm : treeMapM rt t with
          | none => rw [hm] at h; cases h
          | some w =>
            rw [hm] at h
            cases h
            obtain ⟨s1, s2⟩ := transpose_spec ht
            refine ⟨x, ys, by rw [instancesOf_eq hi]; rfl, fun y hy => skel_trans (s1 y hy) (skel_mapM hm), fun i hl => ?_⟩
            have e := congrArg (fun l => l[i]?) (leaves_treeMapM hm)
            simp only [List.getElem?_map, s2 i hl, Option.map_some] at e
            cases hw : (leaves z)[i]? with
            | none => rw [hw] at e; cases e
            | some v => rw [hw] at e; simpa using e

/-- **C80, `result_type` is defined** on instances of one class (when `jnp.result_type` itself is). -/
theorem result_type_defined {rt : List D → Option D} (hrt : ∀ l, (rt l).isSome) (cls : String) {x : Inst D} {ys : List (Inst D)}
    (h : ∀ y ∈ ys, Skel x y) : ∃ z, resultTypeInst rt ((x :: ys).map (Arg.inst cls)) = some (cls, z) := by
  obtain ⟨t, ht⟩ := transpose_some h
  refine ⟨treeMap (fun l => (rt l).get (hrt l)) t, ?_⟩
  unfold resultTypeInst
  simp only [List.map_cons]
  rw [instancesOf_map]
  simp only [Option.bind_some, ht]
  rw [treeMapM_some (g := fun l => (rt l).get (hrt l)) fun v _ => by simp]
  rfl

/-- **C80, mixing** an instance with a plain dtype, or instances of two classes, raises, whatever the order. -/
theorem result_type_mixed_raises (rt : List D → Option D) {args : List (Arg D)} {cls : String} {x : Inst D} {a : Arg D} (hi : Arg.inst cls x ∈ args)
    (ha : a ∈ args) (hne : ∀ y, a ≠ .inst cls y) : resultTypeInst rt args = none := by
  cases h : resultTypeInst rt args with
  | none => rfl
  | some p =>
    obtain ⟨c, z⟩ := p
    obtain ⟨u, us, e, _⟩ := result_type_fields rt h
    rw [e] at hi ha
    obtain ⟨v, _, hv⟩ := List.mem_map.1 hi
    obtain ⟨w, _, hw⟩ := List.mem_map.1 ha
    cases hv
    exact absurd hw.symm (hne w)

/-! ## Concrete cases: dtypes are widths, a cast may not narrow -/

def demo : Inst Nat := .leaf "id" 32 (.nested "p" (.leaf "v" 16 .nil) .nil)
def demo64 : Inst Nat := .leaf "id" 32 (.nested "p" (.leaf "v" 64 .nil) .nil)

def widen : Nat → Nat → Bool := fun a b => Nat.ble a b

example : canCast (some widen) (fun _ => none) "C" demo (.dtype 32) = some true ∧
    canCast (some widen) (fun _ => none) "C" demo (.dtype 16) = some false ∧
    canCast (some widen) (fun _ => none) "C" demo (.inst "C" demo64) = some true ∧
    canCast (some widen) (fun _ => none) "C" demo64 (.inst "C" demo) = some false ∧
    canCast (some widen) (fun _ => none) "C" demo (.inst "D" demo64) = none ∧
    canCast (some widen) (fun _ => none) "C" demo (.npType 64) = none := by decide +kernel

example : Skel demo demo64 ∧ leaves demo ≠ [] := ⟨⟨rfl, trivial, rfl, ⟨rfl, trivial, trivial⟩, trivial⟩, by decide⟩

example : resultTypeInst (fun l => some (l.foldl max 0)) [.inst "C" demo, .inst "C" demo64, .inst "C" demo] = some ("C", demo64) ∧
    resultTypeInst (fun l => some (l.foldl max 0)) [.inst "C" demo, .dtype 64] = none := ⟨rfl, rfl⟩

end TypeOps
